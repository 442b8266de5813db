import Verif.Model.PaperFig4Circuits
import Verif.Props.PaperGenerate
import Verif.Props.PaperFig4

/-!
# C110: figure 4 for the circuits that were generated
-/

namespace Stoq

open Matrix Paper World Tests

namespace Paper

/-- What the client has after both cells. -/
theorem circuits_mirror {n : ℕ} (hn : 2 ≤ n) {fmt : ℕ → ℝ → String} {layers : ℕ} {steps : ℤ} {bound : ℝ} {count tries : ℕ}
    {rng : Rng} {rav xeb : List (ℕ × String)} {c : Client}
    (h : circuits 0 fmt n layers steps bound count tries (Client.start rng) = (.ok (rav, xeb), c)) :
    ∃ Cs p, Mirror c Cs p ∧ rav.length = count ∧ xeb.length = count ∧
      (∀ a ∈ rav, ∃ v, p.seqs[a.1]? = some v ∧ v.dimension = 2 ^ n ∧ 1 - overlap 1 (circuit n v.entries) ≤ bound) ∧
      ∀ b ∈ xeb, ∃ v, p.seqs[b.1]? = some v ∧ v.dimension = 2 ^ n := by
  have hu := counts_usable hn
  obtain ⟨x, r, -, h1, h2⟩ := ravCircuits_mirror hu fmt layers steps bound tries count (.start rng)
  unfold circuits at h
  rw [primitiveCounts_eq, PyM.bind_of_ok (show (PyM.lift (Except.ok (Paper.counts n)) : PyM Client _) (Client.start rng) =
    (.ok _, _) from rfl)] at h
  cases x with
  | none =>
    have h1 := h1 rfl
    rcases hr : ravCircuits 0 fmt n (Paper.counts n) layers steps bound tries count (Client.start rng) with ⟨e' | rav, c'⟩
    · rw [PyM.bind_of_error hr] at h; cases h
    · rw [hr] at h1; cases h1
  | some ys =>
    obtain ⟨rav', c', p', e1, m1, -, -, hl, hg, -, -⟩ := h2 ys rfl
    obtain ⟨xeb', c2, p2, e2, m2, hp, hf, -⟩ := xebCircuits_mirror hu (by norm_num) fmt m1 (rav := rav') (fun a ha => by
      obtain ⟨-, v, k, a1, -, a2, -⟩ := hg a ha
      exact ⟨v, k, a1, a2⟩)
    rw [PyM.bind_of_ok e1, PyM.bind_of_ok e2] at h
    cases h
    refine ⟨_, p2, m2, hl, hf.length_eq ▸ hl, fun a ha => ?_, fun b hb => ?_⟩
    · obtain ⟨-, v, k, a1, -, a2, a3, -⟩ := hg a ha
      exact ⟨v, prefix_get hp a1, a2.1, a3⟩
    · obtain ⟨a, ha, hab⟩ := forall₂_right hf b hb
      obtain ⟨-, v, k, a1, -, a2, -⟩ := hg a ha
      obtain ⟨v', b1, b2, -⟩ := hab v k a1 a2
      exact ⟨v', b1, b2.1⟩

theorem sequenceMatrices_mirror {n : ℕ} {Cs : List Compiler} {p : Plain} {files : List (ℕ × String)} :
    ∀ {c : Client}, Mirror c Cs p → (∀ a ∈ files, ∃ v, p.seqs[a.1]? = some v ∧ v.dimension = 2 ^ n) →
    ∃ ms c', sequenceMatrices 0 files c = (.ok ms, c') ∧ c'.world.rng = c.world.rng ∧ Mirror c' Cs p ∧
      List.Forall₂ (fun a m => ∃ v, c.seq a.1 = some v ∧ p.seqs[a.1]? = some v ∧ v.dimension = 2 ^ n ∧
        m.toMatrix (2 ^ n) = circuit n v.entries) files ms := by
  induction files with
  | nil => exact fun h _ => ⟨[], _, rfl, rfl, h, .nil⟩
  | cons a files ih =>
    intro c h hs
    obtain ⟨v, hv, hd⟩ := hs a (by simp)
    have hstep' : (p.step (.product a.1)).2 = p := by simp [Plain.step, Plain.with_, hv]
    obtain ⟨u, hu1, hu2⟩ := h.rel.2.product hv hd
    have hM := Mirror.op (.product a.1) h trivial trivial
    rw [hstep'] at hM
    have e1 : product 0 a.1 c = (.ok u, (c.step 0 (.product a.1)).2) := by
      unfold product perform
      rcases hx : c.step 0 (.product a.1) with ⟨e | obs, c'⟩
      · rw [hx] at hu1; cases hu1
      · rw [hx] at hu1; cases hu1; rfl
    obtain ⟨ms, c', e2, r2, m2, hf⟩ := ih hM fun b hb => hs b (by simp [hb])
    refine ⟨u.matrix :: ms, c', ?_, r2.trans (product_rng h.rel.2 hv), m2, .cons ⟨v, seq_of h hv, hv, hd, hu2.2.2⟩ (hf.imp ?_)⟩
    · rw [sequenceMatrices, PyM.bind_of_ok e1, PyM.bind_of_ok e2]; rfl
    · rintro b m ⟨w, -, w2, w3⟩
      exact ⟨w, seq_of h w2, w2, w3⟩

end Paper

/-- C110: the matrices of the generated circuits are computed without an exception and without random numbers, and are those of
the circuits' gates. -/
theorem C110_matrices {n : ℕ} (hn : 2 ≤ n) {fmt : ℕ → ℝ → String} {layers : ℕ} {steps : ℤ} {bound : ℝ} {count tries : ℕ}
    {rng : Rng} {rav xeb : List (ℕ × String)} {c : Client}
    (h : circuits 0 fmt n layers steps bound count tries (Client.start rng) = (.ok (rav, xeb), c)) :
    ∃ ms ms' c1 c2, sequenceMatrices 0 rav c = (.ok ms, c1) ∧ sequenceMatrices 0 xeb c1 = (.ok ms', c2) ∧
      c2.world.rng = c.world.rng ∧ ms.length = count ∧ ms'.length = count ∧
      List.Forall₂ (fun a m => ∃ v, c.seq a.1 = some v ∧ m.toMatrix (2 ^ n) = circuit n v.entries) (rav ++ xeb) (ms ++ ms') ∧
      (∀ m ∈ ms ++ ms', m.toMatrix (2 ^ n) ∈ unitaryGroup (Fin (2 ^ n)) ℂ) ∧
      ∀ m ∈ ms, 1 - overlap 1 (m.toMatrix (2 ^ n)) ≤ bound := by
  obtain ⟨Cs, p, hM, hl, hl', hr, hx⟩ := circuits_mirror hn h
  obtain ⟨ms, c1, e1, r1, m1, f1⟩ := sequenceMatrices_mirror hM (n := n) (files := rav) fun a ha => by
    obtain ⟨v, h1, h2, -⟩ := hr a ha
    exact ⟨v, h1, h2⟩
  obtain ⟨ms', c2, e2, r2, -, f2⟩ := sequenceMatrices_mirror m1 (n := n) hx
  refine ⟨ms, ms', c1, c2, e1, e2, r2.trans r1, f1.length_eq ▸ hl, f2.length_eq ▸ hl', ?_, ?_, ?_⟩
  · refine List.rel_append (R := fun a m => ∃ v, c.seq a.1 = some v ∧ m.toMatrix (2 ^ n) = circuit n v.entries)
      (f1.imp ?_) (f2.imp ?_)
    · rintro a m ⟨v, v1, -, -, v2⟩
      exact ⟨v, v1, v2⟩
    · rintro a m ⟨v, -, v1, -, v2⟩
      exact ⟨v, seq_of hM v1, v2⟩
  · intro m hm
    rcases List.mem_append.mp hm with hm | hm
    · obtain ⟨a, -, v, -, v1, v2, v3⟩ := forall₂_right f1 m hm
      rw [v3]; exact circuit_unitary hM v1 v2
    · obtain ⟨a, -, v, -, v1, v2, v3⟩ := forall₂_right f2 m hm
      rw [v3]; exact circuit_unitary hM v1 v2
  · intro m hm
    obtain ⟨a, ha, v, -, v1, -, v3⟩ := forall₂_right f1 m hm
    obtain ⟨v', w1, -, w2⟩ := hr a ha
    rw [v1] at w1
    cases w1
    rw [v3]; exact w2

/-- C110: figure 4 drawn for the generated circuits: whatever random numbers the circuits were generated with, the points of the
simulated RAV experiments are on average not above the solid line for the error `1 - (1 - 2^n · bound / 2)²`. -/
theorem C110_figure {n : ℕ} (hn : 2 ≤ n) {fmt : ℕ → ℝ → String} {layers : ℕ} {steps : ℤ} {bound : ℝ} {count tries : ℕ}
    {rng : Rng} {rav xeb : List (ℕ × String)} {c : Client} (hcount : 0 < count)
    (h : circuits 0 fmt n layers steps bound count tries (Client.start rng) = (.ok (rav, xeb), c))
    (hDc : (2 ^ n : ℕ) * bound ≤ 2) (he : 1 / ((2 ^ n : ℕ) : ℝ) < (1 - (2 ^ n : ℕ) * bound / 2) ^ 2) :
    ∃ ms c', sequenceMatrices 0 rav c = (.ok ms, c') ∧ ms.length = count ∧
      ∀ (start : Fin (2 ^ n)) {fractions : List ℝ} {shots : List ℕ} {repetitions nShots j : ℕ}
        (_ : ∀ f ∈ fractions, 0 ≤ f ∧ f ≤ 1) (_ : shots.Nodup) (_ : ∀ K ∈ shots, 0 < K) (_ : 0 < repetitions)
        (_ : nShots ∈ shots) (hj : j < fractions.length),
        Averages (fig4Dashed (fun m f => ravStdData m start f) ms fractions shots repetitions nShots j) repetitions
          (ms.map fun m => (stdFRav nShots (2 ^ n : ℕ) fractions[j] (1 - idealOutputProbs m start start) *
            (((2 ^ n : ℕ) * idealOutputProbs m start start - 1) / ((2 ^ n : ℕ) - 1))) ^ 2)
          (stdFRav nShots (2 ^ n : ℕ) fractions[j] (1 - (1 - (2 ^ n : ℕ) * bound / 2) ^ 2)) := by
  obtain ⟨ms, ms', c1, c2, e1, -, -, hl, -, -, hu, hb⟩ := C110_matrices hn h
  refine ⟨ms, c1, e1, hl, fun start _ _ _ _ _ hf hn' hpos hR hK hj => ?_⟩
  exact C109_compiled (Nat.one_lt_two_pow (by omega)) (by rintro rfl; simp at hl; omega) (fun m hm => hu m (by simp [hm])) start
    hb hDc he hf hn' hpos hR hK hj

/-- C110: the same for the XEB circuits that were generated, if no output is uniform: the point is on average not above the mean
of the standard deviations. -/
theorem C110_xeb {n : ℕ} (hn : 2 ≤ n) {fmt : ℕ → ℝ → String} {layers : ℕ} {steps : ℤ} {bound : ℝ} {count tries : ℕ}
    {rng : Rng} {rav xeb : List (ℕ × String)} {c : Client}
    (h : circuits 0 fmt n layers steps bound count tries (Client.start rng) = (.ok (rav, xeb), c)) :
    ∃ ms ms' c1 c2, sequenceMatrices 0 rav c = (.ok ms, c1) ∧ sequenceMatrices 0 xeb c1 = (.ok ms', c2) ∧ ms'.length = count ∧
      ∀ (start : Fin (2 ^ n)) {fractions : List ℝ} {shots : List ℕ} {repetitions nShots j : ℕ}
        (_ : ∀ m ∈ ms', ¬ IsUniform (idealOutputProbs m start))
        (_ : ∀ f ∈ fractions, 0 ≤ f ∧ f ≤ 1) (_ : shots.Nodup) (_ : ∀ K ∈ shots, 0 < K) (_ : 0 < repetitions)
        (_ : nShots ∈ shots) (hj : j < fractions.length),
        Averages (fig4Dashed (fun m f => xebStdData m start f) ms' fractions shots repetitions nShots j) repetitions
          (ms'.map fun m => shotVariance (outputProbs fractions[j] (idealOutputProbs m start)) (idealOutputProbs m start) /
            (nShots * (∑ x, idealOutputProbs m start x ^ 2 - 1 / (2 ^ n : ℕ)) ^ 2))
          (mean (ms'.map fun m => √((1 - 1 / repetitions) *
            (shotVariance (outputProbs fractions[j] (idealOutputProbs m start)) (idealOutputProbs m start) /
              (nShots * (∑ x, idealOutputProbs m start x ^ 2 - 1 / (2 ^ n : ℕ)) ^ 2))))) := by
  obtain ⟨ms, ms', c1, c2, e1, e2, -, -, hl, -, hu, -⟩ := C110_matrices hn h
  exact ⟨ms, ms', c1, c2, e1, e2, hl, fun start _ _ _ _ _ hun hf hn' hpos hR hK hj =>
    C109_xeb (fun m hm => hu m (by simp [hm])) start hun hf hn' hpos hR hK hj⟩

/-! ## Examples -/

/-- C110: the notebooks for two to six qubits, with the bound 0.02. -/
example {n : ℕ} (hn : 2 ≤ n) (hn' : n ≤ 6) {fmt : ℕ → ℝ → String} {tries : ℕ} {rng : Rng} {rav xeb : List (ℕ × String)} {c : Client}
    (h : circuits 0 fmt n (10 : ℕ) 4000 0.02 20 tries (Client.start rng) = (.ok (rav, xeb), c)) (start : Fin (2 ^ n)) :
    ∃ ms c' vs, sequenceMatrices 0 rav c = (.ok ms, c') ∧ ms.length = 20 ∧
      Averages (fig4Dashed (fun m f => ravStdData m start f) ms [0, 0.25, 0.5, 0.75, 1]
        [25, 50, 100, 200, 400, 800, 1600, 3200, 6400] 100 100 1) 100 vs
        (stdFRav (100 : ℕ) (2 ^ n : ℕ) 0.25 (1 - (1 - (2 ^ n : ℕ) * 0.02 / 2) ^ 2)) := by
  obtain ⟨ms, c', h1, h2, h3⟩ := C110_figure hn (by norm_num) h
    (by interval_cases n <;> norm_num) (by interval_cases n <;> norm_num)
  refine ⟨ms, c', _, h1, h2, h3 start (fractions := [0, 0.25, 0.5, 0.75, 1]) ?_ (by simp) (by simp) (by norm_num) (by simp) (by simp)⟩
  intro f hf
  simp only [List.mem_cons, List.not_mem_nil, or_false] at hf
  rcases hf with rfl | rfl | rfl | rfl | rfl <;> norm_num

/-- C110: such circuits are generated for some random numbers, after enough rounds. -/
example (fmt : ℕ → ℝ → String) : ∃ rng tries rav xeb c ms c',
    circuits 0 fmt 2 (10 : ℕ) 4000 0.02 20 tries (Client.start rng) = (.ok (rav, xeb), c) ∧
    sequenceMatrices 0 rav c = (.ok ms, c') ∧ ms.length = 20 := by
  have h := C97_almost_surely (n := 2) le_rfl 10 4000 (bound := 0.02) (by norm_num) (B := 7) (by norm_num) le_rfl fmt 20
  obtain ⟨t, tries, rav, xeb, c, e, -⟩ := MeasureTheory.nonempty_of_measure_ne_zero (by rw [h]; exact one_ne_zero)
  obtain ⟨ms, c', h1, h2, -⟩ := C110_figure le_rfl (by norm_num) e (by norm_num) (by norm_num)
  exact ⟨_, tries, rav, xeb, c, ms, c', e, h1, h2⟩

/-- C110: circuits without layers do nothing, so that their output is not uniform. -/
example (fmt : ℕ → ℝ → String) : ∃ rng tries rav xeb c ms c1 ms' c2 vs b,
    circuits 0 fmt 2 (0 : ℕ) 0 0.02 20 tries (Client.start rng) = (.ok (rav, xeb), c) ∧
    sequenceMatrices 0 rav c = (.ok ms, c1) ∧ sequenceMatrices 0 xeb c1 = (.ok ms', c2) ∧ ms'.length = 20 ∧
    Averages (fig4Dashed (fun m f => xebStdData m (1 : Fin (2 ^ 2)) f) ms' [0, 1] [25, 100] 100 100 0) 100 vs b := by
  have h := C97_almost_surely (n := 2) le_rfl 0 0 (bound := 0.02) (by norm_num) (B := 7) (by norm_num) le_rfl fmt 20
  obtain ⟨t, tries, rav, xeb, c, e, hw⟩ := MeasureTheory.nonempty_of_measure_ne_zero (by rw [h]; exact one_ne_zero)
  obtain ⟨ms, ms', c1, c2, e1, e2, hl, h3⟩ := C110_xeb le_rfl e
  obtain ⟨_, _, _, _, e1', e2', -, hlm, -, hf, -⟩ := C110_matrices le_rfl e
  rw [e1] at e1'; cases e1'
  rw [e2] at e2'; cases e2'
  refine ⟨_, tries, rav, xeb, c, ms, c1, ms', c2, _, _, e, e1, e2, hl, h3 1 (fractions := [0, 1]) (fun m hm => ?_) (by simp) (by simp)
    (by simp) (by norm_num) (by simp) (by simp)⟩
  have hf' : List.Forall₂ (fun a m => ∃ v, c.seq a.1 = some v ∧ m.toMatrix (2 ^ 2) = circuit 2 v.entries) xeb ms' := by
    have := List.forall₂_drop rav.length hf
    rwa [List.drop_left, show rav.length = ms.length by rw [hlm, hw.1], List.drop_left] at this
  obtain ⟨b, hb, v, hv, hmv⟩ := forall₂_right hf' m hm
  obtain ⟨a, -, k, -, v', -, hk, -, hv', -, ⟨ls, hls, -, hmean, -⟩, -⟩ := forall₂_right hw.2.2 b hb
  rw [hv] at hv'
  cases hv'
  obtain rfl : ls = [] := List.eq_nil_of_length_eq_zero (by simp at hk; omega)
  have h1 : circuit 2 v.entries = 1 := by
    have : (some 1 : Option (Matrix (Fin (2 ^ 2)) (Fin (2 ^ 2)) ℂ)) = some (circuit 2 v.entries) := hmean
    exact (Option.some.inj this).symm
  intro hun
  have := hun 1
  rw [idealOutputProbs_eq, hmv, h1] at this
  norm_num at this

end Stoq
