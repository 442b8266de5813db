import Verif.Proofs.PaperGates
import Verif.Proofs.PaperGenerate
import Verif.Proofs.ReturnProb

/-!
# C97: how the circuits of the paper's experiments are generated
-/

namespace Stoq

open Matrix Paper World

/-- A layer of the paper's circuits: three `R`, three `Rz` and one `MS`, in any order, on qubits below `n` and with rotation
angles up to `π/10`. -/
def Paper.GateLayer (n : ℕ) (l : List Jaqal.Statement) : Prop :=
  ∃ rs zs ms : List Jaqal.Statement, l.Perm (rs ++ zs ++ ms) ∧ rs.length = 3 ∧ zs.length = 3 ∧ ms.length = 1 ∧
    (∀ s ∈ rs, ∃ i < n, ∃ φ θ : ℝ, |φ| ≤ Real.pi ∧ |θ| ≤ Real.pi / 10 ∧ s = ⟨"R", [i], [φ, θ]⟩) ∧
    (∀ s ∈ zs, ∃ i < n, ∃ θ : ℝ, |θ| ≤ Real.pi / 10 ∧ s = ⟨"Rz", [i], [θ]⟩) ∧
    (∀ s ∈ ms, ∃ i < n, ∃ j < n, i ≠ j ∧ ∃ φ θ : ℝ, |φ| ≤ Real.pi ∧ |θ| ≤ Real.pi / 10 ∧ s = ⟨"MS", [i, j], [φ, θ]⟩)

/-- The text is that of a complete program of `k` layers, and the program does `U`. -/
def Paper.IsFile (fmt : ℝ → String) (n k : ℕ) (text : String) (U : Matrix (Fin (2 ^ n)) (Fin (2 ^ n)) ℂ) : Prop :=
  ∃ ls : List (List Jaqal.Statement), ls.length = k ∧ (∀ l ∈ ls, GateLayer n l) ∧ Jaqal.meaning n ls.flatten = some U ∧
    text = "\n    from qscout.v1.std usepulses *\n    register q[" ++ toString n ++ "]\n    prepare_all\n    " ++
      Jaqal.text fmt ls.flatten ++ "\n    measure_all\n    "

/-- The files of the two cells: the requested number of programs, of at least the requested number of layers and at most one
more for each step, that do nothing up to the bound, so that the mean probability to measure the basis state prepared is
at least `(1 - bound)²`; and for each of them a program of the same number of layers.  Each file is that of another
sequence of the client. -/
def Paper.Written (fmt : ℝ → String) (n layers steps count : ℕ) (bound : ℝ) (c : Client) (rav xeb : List (ℕ × String)) : Prop :=
  rav.length = count ∧ ((rav ++ xeb).map Prod.fst).Pairwise (· < ·) ∧
  List.Forall₂ (fun a b => ∃ k v v', layers ≤ k ∧ k ≤ layers + steps ∧ c.seq a.1 = some v ∧ c.seq b.1 = some v' ∧
    IsFile fmt n k a.2 (circuit n v.entries) ∧ IsFile fmt n k b.2 (circuit n v'.entries) ∧
    circuit n v.entries ∈ unitaryGroup (Fin (2 ^ n)) ℂ ∧ 1 - overlap 1 (circuit n v.entries) ≤ bound ∧
    (bound ≤ 1 → (1 - bound) ^ 2 ≤ (∑ x, ‖circuit n v.entries x x‖ ^ 2) / 2 ^ n)) rav xeb

theorem Paper.primitiveCounts_eq (n : ℕ) : primitiveCounts n =
    .ok [(⟨.inr (rUnitary (Real.pi / 10)), some (connectivity1 n)⟩, 3),
      (⟨.inr (rzUnitary (Real.pi / 10)), some (connectivity1 n)⟩, 3),
      (⟨.inr (msUnitary (Real.pi / 10)), some (connectivity2 n)⟩, 1)] := by
  have hpi : 0 ≤ Real.pi / 10 := by have := Real.pi_pos; positivity
  unfold primitiveCounts
  rw [qscoutR_eq hpi, qscoutRz_eq hpi, qscoutMs_eq hpi]
  rfl

/-- The counts of the paper. -/
noncomputable abbrev Paper.counts (n : ℕ) : List (Primitive × ℤ) :=
  [(⟨.inr (rUnitary (Real.pi / 10)), some (connectivity1 n)⟩, 3),
    (⟨.inr (rzUnitary (Real.pi / 10)), some (connectivity1 n)⟩, 3),
    (⟨.inr (msUnitary (Real.pi / 10)), some (connectivity2 n)⟩, 1)]

theorem Paper.all_counts {n : ℕ} {Q : Primitive × ℤ → Prop}
    (h1 : Q (⟨.inr (rUnitary (Real.pi / 10)), some (connectivity1 n)⟩, 3))
    (h2 : Q (⟨.inr (rzUnitary (Real.pi / 10)), some (connectivity1 n)⟩, 3))
    (h3 : Q (⟨.inr (msUnitary (Real.pi / 10)), some (connectivity2 n)⟩, 1)) : ∀ pc ∈ Paper.counts n, Q pc := by
  intro pc hpc
  simp only [List.mem_cons, List.not_mem_nil, or_false] at hpc
  rcases hpc with rfl | rfl | rfl
  exacts [h1, h2, h3]

theorem Paper.counts_oneOf (n : ℕ) : ∀ pc ∈ Paper.counts n, OneOf n pc.1 := by
  have hpi : 0 ≤ Real.pi / 10 := by have := Real.pi_pos; positivity
  exact all_counts ⟨_, .inl (qscoutR_eq hpi)⟩ ⟨_, .inr (.inl (qscoutRz_eq hpi))⟩ ⟨_, .inr (.inr (qscoutMs_eq hpi))⟩

theorem Paper.counts_usable {n : ℕ} (hn : 2 ≤ n) : Usable n (Paper.counts n) where
  valid pc hpc := (counts_oneOf n pc hpc).valid hn
  nonneg := all_counts (Q := fun pc => 0 ≤ pc.2) (by norm_num) (by norm_num) (by norm_num)
  placeable := all_counts (Q := fun pc => 0 < pc.2 → pc.1.allowedApplyTo ≠ some []) (fun _ => connectivity1_ne (by omega))
    (fun _ => connectivity1_ne (by omega)) (fun _ => connectivity2_ne hn)

theorem Paper.gateLayer_of {n : ℕ} {l : List EntryVal} (h : IsLayer 0 n (Paper.counts n) l) : GateLayer n (l.map statement) := by
  have hpi : 0 ≤ Real.pi / 10 := by have := Real.pi_pos; positivity
  obtain ⟨groups, hp, hg⟩ := h
  rcases hg with _ | ⟨h1, _ | ⟨h2, _ | ⟨h3, _ | _⟩⟩⟩
  rename_i g1 g2 g3
  have key := fun st => C74_reach (n := n) (N := n) hpi (qscoutR_eq hpi) (qscoutRz_eq hpi) (qscoutMs_eq hpi) st
  refine ⟨g1.map statement, g2.map statement, g3.map statement, ?_, ?_, ?_, ?_, ?_, ?_, ?_⟩
  · have := hp.map statement
    simpa using this
  · rw [List.length_map, h1.1]; rfl
  · rw [List.length_map, h2.1]; rfl
  · rw [List.length_map, h3.1]; rfl
  · intro s hs
    obtain ⟨v, hv, rfl⟩ := List.mem_map.mp hs
    exact (key _).1.mp ⟨v, h1.2 v hv, rfl⟩
  · intro s hs
    obtain ⟨v, hv, rfl⟩ := List.mem_map.mp hs
    exact (key _).2.1.mp ⟨v, h2.2 v hv, rfl⟩
  · intro s hs
    obtain ⟨v, hv, rfl⟩ := List.mem_map.mp hs
    exact (key _).2.2.mp ⟨v, h3.2 v hv, rfl⟩

theorem Paper.isFile_of {n k : ℕ} {v : SeqView} (h : Layered n (Paper.counts n) k v) (fmt : ℕ → ℝ → String) :
    IsFile (fmt 7) n k (fileText fmt n v) (circuit n v.entries) := by
  obtain ⟨-, ls, h1, h2, h3⟩ := h
  have hflat : (ls.map (List.map statement)).flatten = v.entries.map statement := by rw [h1, List.map_flatten]
  refine ⟨ls.map (List.map statement), by simpa using h2, fun l hl => ?_, ?_, ?_⟩
  · obtain ⟨l', hl', rfl⟩ := List.mem_map.mp hl
    exact gateLayer_of (h3 l' hl')
  · rw [hflat]
    refine meaning_circuit fun e he => ?_
    rw [h1] at he
    obtain ⟨l, hl, he⟩ := List.mem_flatten.mp he
    obtain ⟨groups, hperm, hgr⟩ := h3 l hl
    obtain ⟨g, hg, heg⟩ := List.mem_flatten.mp (hperm.mem_iff.mp he)
    obtain ⟨pc, hpc, hq⟩ := forall₂_right hgr g hg
    exact statement_gate (counts_oneOf n pc hpc) (hq.2 e heg)
  · rw [hflat]
    unfold fileText
    congr 2
    unfold Jaqal.text TextKind.text
    rw [List.map_map]
    exact congrArg (fun l => "// JAQAL generated from UnitarySequence.get_jaqal()\n" ++ "\n".intercalate l)
      (List.map_congr_left fun e _ => statement_line fmt e)

theorem Paper.mean_return {n : ℕ} {U : Matrix (Fin (2 ^ n)) (Fin (2 ^ n)) ℂ} {bound : ℝ} (h : 1 - overlap 1 U ≤ bound)
    (hb : bound ≤ 1) : (1 - bound) ^ 2 ≤ (∑ x, ‖U x x‖ ^ 2) / 2 ^ n := by
  have hd : (0 : ℝ) < 2 ^ n := by positivity
  have h1 := sq_trace_le U
  have h2 : ‖U.trace‖ = overlap 1 U * 2 ^ n := by
    unfold overlap
    rw [conjTranspose_one, one_mul]
    push_cast
    field_simp
  rw [h2] at h1
  push_cast at h1
  rw [le_div_iff₀ hd]
  have h3 : (1 - bound) ^ 2 ≤ overlap 1 U ^ 2 := pow_le_pow_left₀ (by linarith) (by linarith) 2
  have h4 : (overlap 1 U) ^ 2 * 2 ^ n ≤ ∑ x, ‖U x x‖ ^ 2 := by
    refine le_of_mul_le_mul_left ?_ hd
    calc _ = (overlap 1 U * 2 ^ n) ^ 2 := by ring
      _ ≤ _ := h1
  exact (mul_le_mul_of_nonneg_right h3 hd.le).trans h4

theorem Paper.seq_of {c : Client} {Cs : List Compiler} {p : Plain} (h : Mirror c Cs p) {i : ℕ} {v : SeqView}
    (hi : p.seqs[i]? = some v) : c.seq i = some v := by
  rcases forall₂_getElem? h.rel.2.seqs i with ⟨-, h2⟩ | ⟨a, b, h1, h2, h3⟩
  · rw [h2] at hi; cases hi
  · rw [h2] at hi; cases hi
    unfold Client.seq
    rw [h1]
    exact h3

/-- The gates of the circuits, in terms of the random numbers: those of `ys` are random layers with a walk that undoes them,
and the others are drawn afterwards, from the state `r` of the generator, with the same numbers of layers. -/
def Paper.Drawn (n : ℕ) (ys : List (List EntryVal × List Metropolis.State)) (r : Rng) (c : Client)
    (rav xeb : List (ℕ × String)) : Prop :=
  List.Forall₂ (fun a y => ∃ v, c.seq a.1 = some v ∧ v.entries = y.1 ++ Rav.final y.2) rav ys ∧
    ∃ gs, randoms n (Paper.counts n) (ys.map fun y => (y.1 ++ Rav.final y.2).length / 7) r = (.ok gs, c.world.rng) ∧
      List.Forall₂ (fun b g => ∃ v, c.seq b.1 = some v ∧ v.entries = g) xeb gs

/-- C97: what the two cells do is determined by the random numbers: `triesList` draws random layers and walks until each
circuit returns up to the bound, and then the random circuits are drawn. -/
theorem C97_draws {n : ℕ} (hn : 2 ≤ n) (fmt : ℕ → ℝ → String) (layers : ℕ) (steps : ℤ) (bound : ℝ) (count tries : ℕ)
    (rng : Rng) :
    ∃ x r, Rng.triesList (plan n (Paper.counts n) layers 1 steps) (Returns n bound) tries count rng = (.ok x, r) ∧
      (x = none → (circuits 0 fmt n layers steps bound count tries (Client.start rng)).1 = .error .outOfFuel) ∧
      (∀ ys, x = some ys → ∃ rav xeb c', circuits 0 fmt n layers steps bound count tries (Client.start rng) =
        (.ok (rav, xeb), c') ∧ Written (fmt 7) n layers steps.toNat count bound c' rav xeb ∧ Drawn n ys r c' rav xeb) := by
  have hu := counts_usable hn
  obtain ⟨x, r, e, h1, h2⟩ := ravCircuits_mirror hu fmt layers steps bound tries count (.start rng)
  refine ⟨x, r, e, fun hx => ?_, fun ys hx => ?_⟩
  · have h1 := h1 hx
    rcases hr : ravCircuits 0 fmt n (Paper.counts n) layers steps bound tries count (Client.start rng) with ⟨e' | rav, c'⟩
    · rw [hr] at h1; cases h1
      unfold circuits
      rw [primitiveCounts_eq]
      rw [PyM.bind_of_ok (show (PyM.lift (Except.ok (Paper.counts n)) : PyM Client _) (Client.start rng) = (.ok _, _) from rfl),
        PyM.bind_of_error hr]
    · rw [hr] at h1; cases h1
  · obtain ⟨rav, c', p', e1, m1, hr, -, hl, hg, hlt, hys⟩ := h2 ys hx
    obtain ⟨xeb, c2, p2, e2, m2, hp, hf, hge, hlt', hks⟩ := xebCircuits_mirror hu (by norm_num) fmt m1 (rav := rav) (fun a ha => by
      obtain ⟨-, v, k, a1, -, a2, -⟩ := hg a ha
      exact ⟨v, k, a1, a2⟩)
    refine ⟨rav, xeb, c2, ?_, ⟨hl, ?_, ?_⟩, ?_, ?_⟩
    · unfold circuits
      rw [primitiveCounts_eq]
      rw [PyM.bind_of_ok (show (PyM.lift (Except.ok (Paper.counts n)) : PyM Client _) (Client.start rng) = (.ok _, _) from rfl),
        PyM.bind_of_ok e1, PyM.bind_of_ok e2]
      rfl
    · rw [List.map_append, List.pairwise_append]
      refine ⟨hlt, hlt', fun i hi j hj => ?_⟩
      obtain ⟨a, ha, rfl⟩ := List.mem_map.mp hi
      obtain ⟨b, hb, rfl⟩ := List.mem_map.mp hj
      obtain ⟨-, v, k, a1, -⟩ := hg a ha
      exact (List.getElem?_eq_some_iff.mp a1).1.trans_le (hge b hb)
    · refine List.forall₂_iff_get.mpr ⟨hf.length_eq, fun i hi hi' => ?_⟩
      obtain ⟨-, v, k, a1, a2, a3, a4, a5⟩ := hg _ (List.get_mem rav ⟨i, hi⟩)
      obtain ⟨v', b1, b2, b3⟩ := hf.get hi hi' v k a1 a3
      refine ⟨k, v, v', a2.1, a2.2, seq_of m2 (prefix_get hp a1), seq_of m2 b1, ?_, ?_, circuit_unitary m1 a1 a3.1, a4,
        mean_return a4⟩
      · rw [a5]; exact isFile_of a3 fmt
      · rw [b3]; exact isFile_of b2 fmt
    · exact hys.imp fun a y hay => by
        obtain ⟨v, a1, a2⟩ := hay
        exact ⟨v, seq_of m2 (prefix_get hp a1), a2⟩
    · obtain ⟨gs, g1, g2⟩ := hks (ys.map fun y => (y.1 ++ Rav.final y.2).length / 7) (by
        refine List.forall₂_iff_get.mpr ⟨by rw [List.length_map]; exact hys.length_eq, fun i hi hi' => ?_⟩
        rw [List.length_map] at hi'
        obtain ⟨v, a1, a2⟩ := hys.get hi hi'
        obtain ⟨-, v', k, b1, -, b2, -⟩ := hg _ (List.get_mem rav ⟨i, hi⟩)
        rw [a1] at b1
        cases b1
        refine ⟨v, a1, ?_⟩
        have hlen := Paper.layered_length hu.nonneg b2
        have hk : (ys.map fun y => (y.1 ++ Rav.final y.2).length / 7).get ⟨i, by simpa using hi'⟩ = k := by
          have a2' : v.entries = (ys[i]).1 ++ Rav.final (ys[i]).2 := a2
          rw [List.get_eq_getElem, List.getElem_map, ← a2']
          rw [show ((Paper.counts n).map Prod.snd).sum = 7 by norm_num] at hlen
          omega
        rw [hk]
        exact b2)
      rw [hr] at g1
      exact ⟨gs, g1, g2.imp fun b g hb => by
        obtain ⟨v, b1, b2⟩ := hb
        exact ⟨v, seq_of m2 b1, b2⟩⟩

/-- C97: whatever random numbers are drawn, no exception ends the two cells of a notebook: either the `while` loop of some
circuit is still running after `tries` rounds, or the files are as described. -/
theorem C97_files {n : ℕ} (hn : 2 ≤ n) (fmt : ℕ → ℝ → String) (layers : ℕ) (steps : ℤ) (bound : ℝ) (count tries : ℕ)
    (rng : Rng) :
    (circuits 0 fmt n layers steps bound count tries (Client.start rng)).1 = .error .outOfFuel ∨
      ∃ rav xeb c', circuits 0 fmt n layers steps bound count tries (Client.start rng) = (.ok (rav, xeb), c') ∧
        Written (fmt 7) n layers steps.toNat count bound c' rav xeb := by
  obtain ⟨x, r, -, h1, h2⟩ := C97_draws hn fmt layers steps bound count tries rng
  cases x with
  | none => exact .inl (h1 rfl)
  | some ys =>
    obtain ⟨rav, xeb, c', e, hw, -⟩ := h2 ys rfl
    exact .inr ⟨rav, xeb, c', e, hw⟩

/-- C97: with a negative bound the first loop never ends, whatever random numbers are drawn. -/
theorem C97_negative_bound {n : ℕ} (hn : 2 ≤ n) (fmt : ℕ → ℝ → String) (layers : ℕ) (steps : ℤ) {bound : ℝ}
    (hb : bound < 0) {count : ℕ} (hc : 0 < count) (tries : ℕ) (rng : Rng) :
    (circuits 0 fmt n layers steps bound count tries (Client.start rng)).1 = .error .outOfFuel := by
  rcases C97_files hn fmt layers steps bound count tries rng with h | ⟨rav, xeb, c', -, hl, -, hf⟩
  · exact h
  · cases hf with
    | nil => simp at hl; omega
    | cons h _ =>
      obtain ⟨k, v, v', -, -, -, -, -, -, hu, hle, -⟩ := h
      have := overlap_le_one (one_mem (unitaryGroup (Fin (2 ^ n)) ℂ)) hu
      linarith

/-- C97: for every number of layers and steps and every positive bound the loops end with probability one: each round ends
its loop with a probability of at least some `q > 0`, independently of all that happened before, so that `count` circuits
are found within `tries` rounds each with probability at least `(1 - (1 - q)^tries)^count`. -/
theorem C97_ends {n : ℕ} (hn : 2 ≤ n) (layers steps : ℕ) {bound : ℝ} (hb : 0 < bound) {B : ℕ} (hB : n * n ≤ B) (hB7 : 7 ≤ B) :
    ∃ q : ℝ, 0 < q ∧ q ≤ 1 ∧ ∀ (fmt : ℕ → ℝ → String) (count tries : ℕ),
      ENNReal.ofReal ((1 - (1 - q) ^ tries) ^ count) ≤ Rng.tapes B {t | ∃ rav xeb c',
        circuits 0 fmt n layers steps bound count tries (Client.start (Rng.start t)) = (.ok (rav, xeb), c') ∧
        Written (fmt 7) n layers steps count bound c' rav xeb} := by
  have hpi : 0 < Real.pi / 10 := by have := Real.pi_pos; positivity
  have hu := counts_usable hn
  have hnB : n ≤ B := (Nat.le_mul_self n).trans hB
  have hsrc := Metropolis.layer_source (B := B) hu.valid hu.nonneg
    (all_counts (Q := fun pc => 0 < pc.2 → pc.1.allowedApplyTo ≠ some [] ∧ pc.1.Continuous)
      (fun _ => ⟨connectivity1_ne (by omega), rUnitary_continuous _⟩)
      (fun _ => ⟨connectivity1_ne (by omega), rzUnitary_continuous _⟩)
      (fun _ => ⟨connectivity2_ne hn, msUnitary_continuous _⟩)) hnB (by omega)
    (all_counts (Q := fun pc => ∀ lists, pc.1.allowedApplyTo = some lists → lists.length ≤ B)
      (fun lists hl => by cases hl; rw [connectivity1_length]; exact hnB)
      (fun lists hl => by cases hl; rw [connectivity1_length]; exact hnB)
      (fun lists hl => by cases hl; exact (connectivity2_length n).trans hB)) (by simpa using hB7)
  obtain ⟨ls, h1, h2, h3⟩ := idle_layers (all_counts (n := n) (Q := fun pc => 0 < pc.2 → pc.1.Idle n)
    (fun _ => rUnitary_idle (by omega) hpi) (fun _ => rzUnitary_idle (by omega) hpi) (fun _ => msUnitary_idle hn hpi)) layers
  obtain ⟨q, q0, q1, hq⟩ := returns_of_word hsrc (ws := ls) (k := layers) (fun l hl => by
      obtain ⟨groups, g1, g2⟩ := h2 l hl
      refine (Metropolis.layer_possible (Metropolis.groups_mono g1 fun pc hpc h0 v hv => ?_) g2).result
      refine C77_can_draw ?_ hv
      unfold ChoiceOk
      rw [filter_usable, show placeable [pc.1] = [pc.1] by simp [placeable, hu.placeable pc hpc h0]]
      exact Nat.one_pos) h1 (p := 0.5) (bound := bound) (by norm_num)
    (by rw [h3, overlap_self (Nat.two_pow_pos n) (one_mem _)]; linarith) 0.1 (((2 : ℝ) ^ 2 ^ n) ^ 2) (some 1)
    ((1 : ℝ) = 0 ∨ (steps : ℤ) = 0) steps
  refine ⟨q, q0, q1, fun fmt count tries => ?_⟩
  have x0 : 0 ≤ (1 - q) ^ tries := pow_nonneg (by linarith) _
  have x1 : (1 - q) ^ tries ≤ 1 := pow_le_one₀ (by linarith) (by linarith)
  have key := Rng.triesList_hits (Rng.tries_hits (m := plan n (Paper.counts n) layers 1 steps) (good := Returns n bound) hq q0.le q1 tries)
    (by linarith) (by linarith) count
  have hm := key (fun a => {_t | a ≠ none}) 0 1 le_rfl zero_le_one le_rfl (fun a => by simp) (fun a ha => by
    rw [show ({_t | a ≠ none} : Set Rng.Tape) = Set.univ from Set.eq_univ_of_forall fun _ => ha, MeasureTheory.measure_univ]
    simp)
  rw [mul_one, mul_zero, add_zero] at hm
  refine hm.trans (MeasureTheory.measure_mono fun t ht => ?_)
  obtain ⟨a, r', e1, e2⟩ := ht (Rng.start t) (Rng.rest_start t)
  obtain ⟨x, r, e3, -, h⟩ := C97_draws hn fmt layers steps bound count tries (Rng.start t)
  rw [e1] at e3
  cases e3
  obtain ⟨ys, rfl⟩ := Option.ne_none_iff_exists'.mp e2
  obtain ⟨rav, xeb, c', e, hw, -⟩ := h ys rfl
  exact ⟨rav, xeb, c', e, hw⟩

/-- C97: with probability one there is a number of rounds after which all files are written. -/
theorem C97_almost_surely {n : ℕ} (hn : 2 ≤ n) (layers steps : ℕ) {bound : ℝ} (hb : 0 < bound) {B : ℕ} (hB : n * n ≤ B)
    (hB7 : 7 ≤ B) (fmt : ℕ → ℝ → String) (count : ℕ) :
    Rng.tapes B {t | ∃ tries rav xeb c',
      circuits 0 fmt n layers steps bound count tries (Client.start (Rng.start t)) = (.ok (rav, xeb), c') ∧
      Written (fmt 7) n layers steps count bound c' rav xeb} = 1 := by
  obtain ⟨q, q0, q1, h⟩ := C97_ends hn layers steps hb hB hB7
  refine le_antisymm MeasureTheory.prob_le_one (le_of_tendsto' (f := fun tries : ℕ => ENNReal.ofReal ((1 - (1 - q) ^ tries) ^ count))
    (x := Filter.atTop) ?_ fun tries => (h fmt count tries).trans (MeasureTheory.measure_mono fun t ht => ⟨tries, ht⟩))
  have h1 := tendsto_pow_atTop_nhds_zero_of_lt_one (r := 1 - q) (by linarith) (by linarith)
  have h2 := ((tendsto_const_nhds (x := (1 : ℝ))).sub h1).pow count
  rw [sub_zero, one_pow] at h2
  simpa using ENNReal.tendsto_ofReal h2

/-! ## Examples -/

/-- C97: the notebook for two qubits. -/
example : ∃ q : ℝ, 0 < q ∧ q ≤ 1 ∧ ∀ (fmt : ℕ → ℝ → String) (tries : ℕ),
    ENNReal.ofReal ((1 - (1 - q) ^ tries) ^ 20) ≤ Rng.tapes 7 {t | ∃ rav xeb c',
      circuits 0 fmt 2 10 4000 0.02 20 tries (Client.start (Rng.start t)) = (.ok (rav, xeb), c') ∧
      Written (fmt 7) 2 10 4000 20 0.02 c' rav xeb} := by
  obtain ⟨q, h1, h2, h3⟩ := C97_ends (n := 2) le_rfl 10 4000 (bound := 0.02) (by norm_num) (B := 7) (by norm_num) le_rfl
  exact ⟨q, h1, h2, fun fmt tries => by simpa using h3 fmt 20 tries⟩

/-- C97: the same with a bound of -0.02 would run forever. -/
example (fmt : ℕ → ℝ → String) (tries : ℕ) (rng : Rng) :
    (circuits 0 fmt 2 (10 : ℕ) 4000 (-0.02) 20 tries (Client.start rng)).1 = .error .outOfFuel :=
  C97_negative_bound le_rfl fmt 10 4000 (by norm_num) (by norm_num) tries rng

end Stoq
