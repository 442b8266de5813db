import Verif.Proofs.PaperCount
import Verif.Props.PaperGenerate

/-!
# C99: the notebooks count the layers of the generated files correctly
-/

namespace Stoq

open Matrix Paper

/-- C99: in the file of a valid program both functions of the notebooks count exactly the `MS` gates, however the numbers
are written, as long as they are written on one line. -/
theorem C99_counts {fmt : ℝ → String} (hf : Jaqal.OneLine fmt) {n : ℕ} {ss : List Jaqal.Statement}
    {U : Matrix (Fin (2 ^ n)) (Fin (2 ^ n)) ℂ} (h : Jaqal.meaning n ss = some U) {T : String}
    (hT : T = "\n    from qscout.v1.std usepulses *\n    register q[" ++ toString n ++ "]\n    prepare_all\n    " ++
      Jaqal.text fmt ss ++ "\n    measure_all\n    ") :
    get2QGateCount (readText T.toList) = Jaqal.msCount ss ∧ getLayerCount (readText T.toList) = Jaqal.msCount ss :=
  two_count hf (valid_name h) hT

/-- C99: on what `get_jaqal` returns, without the lines around it, `get_layer_count` is still right but `get_2Q_gate_count`
leaves out the first four gates and the last one. -/
theorem C99_bare {fmt : ℝ → String} (hf : Jaqal.OneLine fmt) {n : ℕ} {ss : List Jaqal.Statement}
    {U : Matrix (Fin (2 ^ n)) (Fin (2 ^ n)) ℂ} (h : Jaqal.meaning n ss = some U) :
    getLayerCount (readText (Jaqal.text fmt ss).toList) = Jaqal.msCount ss ∧
      get2QGateCount (readText (Jaqal.text fmt ss).toList) = Jaqal.msCount (ss.drop 4).dropLast :=
  (bare_count hf (valid_name h)).symm

theorem Paper.layer_ms {n : ℕ} {l : List Jaqal.Statement} (h : GateLayer n l) : Jaqal.msCount l = 1 := by
  obtain ⟨rs, zs, ms, hp, -, -, h3, hr, hz, hm⟩ := h
  unfold Jaqal.msCount
  rw [hp.countP_eq, List.countP_append, List.countP_append, List.countP_eq_zero.mpr, List.countP_eq_zero.mpr,
    List.countP_eq_length.mpr, h3]
  · intro s hs
    obtain ⟨i, -, j, -, -, φ, θ, -, -, rfl⟩ := hm s hs
    rfl
  · intro s hs
    obtain ⟨i, -, θ, -, rfl⟩ := hz s hs
    simp
  · intro s hs
    obtain ⟨i, -, φ, θ, -, -, rfl⟩ := hr s hs
    simp

theorem Paper.layers_ms {n : ℕ} {ls : List (List Jaqal.Statement)} (h : ∀ l ∈ ls, GateLayer n l) :
    Jaqal.msCount ls.flatten = ls.length := by
  unfold Jaqal.msCount
  rw [List.countP_flatten, List.map_congr_left (f := List.countP fun s : Jaqal.Statement => decide (s.name = "MS"))
    (g := fun _ => 1) fun l hl => layer_ms (h l hl)]
  simp

/-- C99: a file of `k` layers is counted as `k`. -/
theorem C99_file {fmt : ℝ → String} (hf : Jaqal.OneLine fmt) {n k : ℕ} {T : String}
    {U : Matrix (Fin (2 ^ n)) (Fin (2 ^ n)) ℂ} (h : IsFile fmt n k T U) :
    get2QGateCount (readText T.toList) = k ∧ getLayerCount (readText T.toList) = k := by
  obtain ⟨ls, h1, h2, h3, h4⟩ := h
  have := C99_counts hf h3 h4
  rwa [layers_ms h2, h1] at this

/-- C99: whatever the random numbers, in the files that the notebooks generate both functions count the same number of
layers for a circuit and for the random circuit made for it; the number is at least the one requested, and at most
the one requested and the number of steps together. -/
theorem C99_generated {n : ℕ} (hn : 2 ≤ n) {fmt : ℕ → ℝ → String} (hf : Jaqal.OneLine (fmt 7)) {layers : ℕ} {steps : ℤ}
    {bound : ℝ} {count tries : ℕ} {rng : Rng} {rav xeb : List (ℕ × String)} {c' : Client}
    (h : circuits 0 fmt n layers steps bound count tries (Client.start rng) = (.ok (rav, xeb), c')) :
    List.Forall₂ (fun a b => ∃ k, layers ≤ k ∧ k ≤ layers + steps.toNat ∧
      get2QGateCount (readText a.2.toList) = k ∧ getLayerCount (readText a.2.toList) = k ∧
      get2QGateCount (readText b.2.toList) = k ∧ getLayerCount (readText b.2.toList) = k) rav xeb := by
  rcases C97_files hn fmt layers steps bound count tries rng with h' | ⟨rav', xeb', c2, e, -, -, hw⟩
  · rw [h] at h'; cases h'
  · rw [h] at e
    cases e
    exact hw.imp fun a b ⟨k, v, v', k1, k2, _, _, f1, f2, _⟩ =>
      ⟨k, k1, k2, (C99_file hf f1).1, (C99_file hf f1).2, (C99_file hf f2).1, (C99_file hf f2).2⟩

/-! ## Examples -/

/-- A program of five gates. -/
noncomputable def Paper.fiveGates : List Jaqal.Statement := List.replicate 5 ⟨"MS", [0, 1], [0, 1]⟩

theorem Paper.fiveGates_valid : ∃ U, Jaqal.meaning 2 fiveGates = some U := by
  unfold fiveGates
  simp only [List.replicate, Jaqal.meaning]
  rw [if_pos ⟨by decide, by decide⟩]
  exact ⟨_, rfl⟩

theorem Paper.oneLine_const : Jaqal.OneLine fun _ => "0.5" := by
  intro x c hc
  have : ∀ c ∈ "0.5".toList, c ≠ '\n' ∧ c ≠ '\r' := by decide
  exact this c hc

/-- C99: in its file the five gates are counted. -/
example {T : String} (hT : T = "\n    from qscout.v1.std usepulses *\n    register q[" ++ toString 2 ++ "]\n    prepare_all\n    " ++
    Jaqal.text (fun _ => "0.5") fiveGates ++ "\n    measure_all\n    ") : get2QGateCount (readText T.toList) = 5 := by
  obtain ⟨U, h⟩ := fiveGates_valid
  rw [(C99_counts oneLine_const h hT).1]
  simp [Jaqal.msCount, fiveGates]

/-- C99: without the lines around them none is counted. -/
example : getLayerCount (readText (Jaqal.text (fun _ => "0.5") fiveGates).toList) = 5 ∧
    get2QGateCount (readText (Jaqal.text (fun _ => "0.5") fiveGates).toList) = 0 := by
  obtain ⟨U, h⟩ := fiveGates_valid
  rw [(C99_bare oneLine_const h).1, (C99_bare oneLine_const h).2]
  constructor <;> simp [Jaqal.msCount, fiveGates]

/-- C99: without steps the notebook's loop can end only with circuits of exactly ten layers, and it does so with positive
probability. -/
example : ∃ q : ℝ, 0 < q ∧ ENNReal.ofReal q ≤ Rng.tapes 7 {t | ∃ rav xeb c',
    circuits 0 (fun _ _ => "0.5") 2 10 0 0.02 1 1 (Client.start (Rng.start t)) = (.ok (rav, xeb), c') ∧ rav.length = 1 ∧
    List.Forall₂ (fun a b => getLayerCount (readText a.2.toList) = 10 ∧ getLayerCount (readText b.2.toList) = 10) rav xeb} := by
  obtain ⟨q, h1, h2, h3⟩ := C97_ends (n := 2) le_rfl 10 0 (bound := 0.02) (by norm_num) (B := 7) (by norm_num) le_rfl
  refine ⟨q, h1, ?_⟩
  have := h3 (fun _ _ => "0.5") 1 1
  rw [pow_one, pow_one, sub_sub_cancel] at this
  refine this.trans (MeasureTheory.measure_mono fun t ⟨rav, xeb, c', e, hw⟩ => ⟨rav, xeb, c', e, hw.1, ?_⟩)
  refine (C99_generated le_rfl oneLine_const e).imp fun a b ⟨k, k1, k2, _, a1, _, a2⟩ => ?_
  have : k = 10 := by simp at k2; omega
  exact ⟨a1.trans this, a2.trans this⟩

end Stoq
