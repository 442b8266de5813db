import Verif.Props.Verification
import Verif.Proofs.ReturnProb
import Verif.Proofs.PaperFidelity

/-!
# Return probabilities of verification circuits

C67: what the distance of a compiled RAV circuit from the identity says about the probability of measuring the initial
state again, which is what the RAV estimate of the paper uses.
-/

namespace Stoq

open Matrix

open Paper Verification

variable {d : ℕ} {u one : Unitary}

theorem distance_identity (hu : u.Exact d) (h1 : Unitary.identity 0 d = .ok one) {c : ℝ}
    (hc : one.distanceFrom 0 u = .ok c) : ‖(u.matrix.toMatrix d).trace‖ = (1 - c) * d := by
  have hd := hu.pos
  rw [Unitary.identity_eq hd] at h1
  have hex : one.Exact d := by
    rw [← Except.ok.inj h1]
    exact ⟨hd, rfl, rfl, by rw [Arr.toMatrix_identity]; exact one_mem _⟩
  have hm : one.matrix.toMatrix d = 1 := by rw [← Except.ok.inj h1, Arr.toMatrix_identity]
  rw [Unitary.distanceFrom_eq hex hu, hm] at hc
  have hc' := Except.ok.inj hc
  unfold overlap at hc'
  rw [conjTranspose_one, one_mul] at hc'
  have hd' : (d : ℝ) ≠ 0 := Nat.cast_ne_zero.mpr hd.ne'
  rw [← hc']
  field_simp
  ring

/-- C67: the mean over all basis states of the probability to return is at least `(1 - c)²` for a circuit at the
distance `c` from the identity. -/
theorem C67_mean_return (hu : u.Exact d) (h1 : Unitary.identity 0 d = .ok one) {c : ℝ}
    (hc : one.distanceFrom 0 u = .ok c) : (1 - c) ^ 2 ≤ (∑ x : Fin d, idealOutputProbs u.matrix x x) / d := by
  have hd : (0 : ℝ) < d := Nat.cast_pos.mpr hu.pos
  have h := sq_trace_le (u.matrix.toMatrix d)
  rw [distance_identity hu h1 hc] at h
  simp only [idealOutputProbs_eq]
  rw [le_div_iff₀ hd]
  have : (d : ℝ) * ((1 - c) ^ 2 * d) ≤ d * ∑ x, ‖u.matrix.toMatrix d x x‖ ^ 2 := by
    calc _ = ((1 - c) * d) ^ 2 := by ring
      _ ≤ _ := h
  exact le_of_mul_le_mul_left this hd

/-- C67: every single basis state returns with a probability of at least `(1 - d c / 2)²`. -/
theorem C67_each_return (hu : u.Exact d) (h1 : Unitary.identity 0 d = .ok one) {c : ℝ}
    (hc : one.distanceFrom 0 u = .ok c) (hdc : d * c ≤ 2) (x : Fin d) :
    (1 - d * c / 2) ^ 2 ≤ idealOutputProbs u.matrix x x := by
  have h := norm_trace_le_diag hu.unitary x
  rw [distance_identity hu h1 hc] at h
  rw [idealOutputProbs_eq]
  exact pow_le_pow_left₀ (by linarith) (by linarith) 2

/-- C67: at the distance of at most 0.02 used in the notebooks, the mean probability to return is at least `1 - 0.04`;
0.04 is the default error `ϵ_default` of `std_f_rav`. -/
theorem C67_default_error (hu : u.Exact d) (h1 : Unitary.identity 0 d = .ok one) {c : ℝ}
    (hc : one.distanceFrom 0 u = .ok c) (hc2 : c ≤ 0.02) :
    1 - 0.04 ≤ (∑ x : Fin d, idealOutputProbs u.matrix x x) / d := by
  refine le_trans ?_ (C67_mean_return hu h1 hc)
  norm_num at hc2 ⊢
  nlinarith

/-- C67: for the rotations of one qubit both bounds are equalities. -/
theorem C67_sharp (θ : ℝ) (hθ : 0 ≤ Real.cos θ) (hu : u.Exact 2) (h1 : Unitary.identity 0 2 = .ok one)
    (hm : u.matrix.toMatrix 2 = !![(Real.cos θ : ℂ), -(Real.sin θ : ℂ); (Real.sin θ : ℂ), (Real.cos θ : ℂ)]) :
    ∃ c, one.distanceFrom 0 u = .ok c ∧ (∀ x : Fin 2, idealOutputProbs u.matrix x x = (1 - 2 * c / 2) ^ 2) ∧
      (∑ x : Fin 2, idealOutputProbs u.matrix x x) / 2 = (1 - c) ^ 2 := by
  have hex : one.Exact 2 := by
    rw [← Except.ok.inj ((Unitary.identity_eq two_pos).symm.trans h1)]
    exact ⟨two_pos, rfl, rfl, by rw [Arr.toMatrix_identity]; exact one_mem _⟩
  have hc := Unitary.distanceFrom_eq hex hu
  have htr := distance_identity hu h1 hc
  set c := 1 - overlap (one.matrix.toMatrix 2) (u.matrix.toMatrix 2) with hcdef
  have hcos : 1 - c = Real.cos θ := by
    have e : ‖(u.matrix.toMatrix 2).trace‖ = 2 * Real.cos θ := by
      rw [hm, trace_fin_two]
      simp only [of_apply, cons_val', cons_val_zero, cons_val_one]
      rw [← two_mul, norm_mul, Complex.norm_real, Real.norm_of_nonneg hθ]
      simp
    rw [e] at htr
    push_cast at htr
    linarith
  have hx : ∀ x : Fin 2, idealOutputProbs u.matrix x x = (1 - c) ^ 2 := by
    intro x
    rw [idealOutputProbs_eq, hm, hcos]
    fin_cases x <;> simp [-Complex.ofReal_cos]
  refine ⟨c, hc, fun x => ?_, ?_⟩
  · rw [hx x]; ring
  · simp only [hx, Finset.sum_const, Finset.card_univ, Fintype.card_fin, nsmul_eq_mul]
    push_cast; ring

/-- The bounds for a RAV circuit that reached the threshold `t`. -/
def ReturnGuarantee (n : ℕ) (t : ℝ) (R : CompilerResult) (w' : World) : Prop :=
  ∃ p, (Seq.product 0 R.sequence w').1 = .ok p ∧
    (∀ x : Fin (2 ^ n), IsDistribution (idealOutputProbs p.matrix x)) ∧
    t ^ 2 ≤ (∑ x : Fin (2 ^ n), idealOutputProbs p.matrix x x) / (2 ^ n : ℕ) ∧
    ((2 ^ n : ℕ) * (1 - t) ≤ 2 → ∀ x : Fin (2 ^ n),
      (1 - (2 ^ n : ℕ) * (1 - t) / 2) ^ 2 ≤ idealOutputProbs p.matrix x x)

theorem return_of_plan {n : ℕ} {random : PyM Rng (List EntryVal)}
    {prop : List EntryVal → PyM Rng (List EntryVal)} {rate cap t : ℝ} (ht : 0 ≤ t) {skip : Prop} {m : ℤ}
    {w w' : World} {R : CompilerResult}
    (h : FollowsPlan n (Rav.plan n random prop rate cap (some t) skip m) w (.ok R, w')) (hs : ¬ skip)
    (hm : (R.costByStep.length : ℤ) < m) : ReturnGuarantee n t R w' := by
  obtain ⟨p, one, x, h1, h2, h3, -, h4⟩ := distance_of_plan h
  have hx : x ≤ 1 - t := (h4 hs hm).1
  have hex : p.Exact (2 ^ n) := by
    unfold FollowsPlan at h
    revert h
    rcases Rav.plan n random prop rate cap (some t) skip m w.rng with ⟨e | ⟨pre, walk⟩, r⟩
    · rintro ⟨h, -⟩
      cases h
    rintro ⟨-, R', k1, -, -, ⟨p', k3, k4, -⟩, -⟩
    cases k1
    rw [k3] at h1
    cases h1
    exact k4
  refine ⟨p, h1, fun x => isDistribution_ideal hex.unitary x, ?_, fun hd y => ?_⟩
  · refine le_trans ?_ (C67_mean_return hex h2 h3)
    exact pow_le_pow_left₀ ht (by linarith) 2
  · have hle : ((2 ^ n : ℕ) : ℝ) * x ≤ (2 ^ n : ℕ) * (1 - t) := by gcongr
    refine le_trans ?_ (C67_each_return hex h2 h3 (by linarith) y)
    exact pow_le_pow_left₀ (by linarith) (by linarith) 2

/-- C67: `generate_rav_sequence`, if compilation was not skipped and stopped before its budget was used up. -/
theorem C67_rav {c : Client} {Cs : List Compiler} (hs : Session 0 c Cs)
    (hex : ∀ x ∈ c.world.entries, x.toVal.Exact) {n : ℕ} {prims : List Primitive} {arr : Bool}
    (hprims : ∀ q ∈ prims, q.Valid n) (hne : prims ≠ []) (harr : ¬ (arr = true ∧ prims.length > 1)) {L : ℤ}
    (hL : 0 ≤ L) {t : ℝ} (ht : 0 < t ∧ t ≤ 1) {p : ℝ} {probs : Option (List ℝ)} {m : ℤ} {R : CompilerResult}
    {w' : World} (h : generateRavSequence 0 (2 ^ n) prims arr L (some t) p probs m c.world = (.ok R, w'))
    (hm : (R.costByStep.length : ℤ) < m) : ReturnGuarantee n t R w' := by
  have := C42_rav_is_plan hs hex hprims hne harr hL ⟨ht.1.le, ht.2⟩ p probs m
  rw [h] at this
  refine return_of_plan ht.1.le this ?_ hm
  rintro (h0 | h0)
  · exact ht.1.ne' h0
  · have := Int.natCast_nonneg R.costByStep.length
    omega

/-- C67: `generate_layered_rav_sequence`, if compilation stopped before its budget was used up. -/
theorem C67_layered {c : Client} {Cs : List Compiler} (hs : Session 0 c Cs)
    (hex : ∀ x ∈ c.world.entries, x.toVal.Exact) {n : ℕ} {counts : List (Primitive × ℤ)}
    (hprims : ∀ pc ∈ counts, pc.1.Valid n) {L : ℤ} (hL : 0 ≤ L) {t : ℝ} (ht : 0 < t ∧ t ≤ 1) {p : ℝ} {m : ℤ}
    {R : CompilerResult} {w' : World}
    (h : generateLayeredRavSequence 0 (2 ^ n) counts L (some t) p m c.world = (.ok R, w'))
    (hm : (R.costByStep.length : ℤ) < m) : ReturnGuarantee n t R w' := by
  have := C43_layered_is_plan hs hex hprims hL ⟨ht.1.le, ht.2⟩ p m
  rw [h] at this
  refine return_of_plan ht.1.le this ?_ hm
  rintro (h0 | h0)
  · exact ht.1.ne' h0
  · have := Int.natCast_nonneg R.costByStep.length
    omega

/-! ## Cases that meet the hypotheses -/

/-- A rotation of one qubit. -/
noncomputable def turn (θ : ℝ) : Unitary :=
  ⟨Arr.ofRows [[(Real.cos θ : ℂ), -(Real.sin θ : ℂ)], [(Real.sin θ : ℂ), (Real.cos θ : ℂ)]], "U", [], false, []⟩

theorem turn_toMatrix (θ : ℝ) : (turn θ).matrix.toMatrix 2 =
    !![(Real.cos θ : ℂ), -(Real.sin θ : ℂ); (Real.sin θ : ℂ), (Real.cos θ : ℂ)] := by
  ext i j; fin_cases i <;> fin_cases j <;> simp [turn, Arr.toMatrix, Arr.ofRows]

theorem turn_exact (θ : ℝ) : (turn θ).Exact 2 := by
  refine ⟨by norm_num, rfl, rfl, ?_⟩
  have h : (Real.cos θ : ℂ) * (Real.cos θ : ℂ) + (Real.sin θ : ℂ) * (Real.sin θ : ℂ) = 1 := by
    rw [← Complex.ofReal_mul, ← Complex.ofReal_mul, ← Complex.ofReal_add, ← sq, ← sq, Real.cos_sq_add_sin_sq]
    rfl
  rw [turn_toMatrix, mem_specialUnitaryGroup_iff, mem_unitaryGroup_iff]
  refine ⟨?_, by rw [det_fin_two_of]; linear_combination h⟩
  ext i j
  fin_cases i <;> fin_cases j <;>
    simp [Matrix.mul_apply, Fin.sum_univ_two, Matrix.star_apply, -Complex.ofReal_cos, -Complex.ofReal_sin] <;>
    first | linear_combination (0 : ℂ) * h | linear_combination h

/-- C67: a rotation by 1/5 is at a distance of at most 0.02 from the identity, and does not always return. -/
example : ∃ one c, Unitary.identity 0 2 = .ok one ∧ one.distanceFrom 0 (turn (1 / 5)) = .ok c ∧ c ≤ 0.02 ∧
    1 - 0.04 ≤ (∑ x : Fin 2, idealOutputProbs (turn (1 / 5)).matrix x x) / (2 : ℕ) ∧
    ∀ x : Fin 2, idealOutputProbs (turn (1 / 5)).matrix x x < 1 := by
  have h1 := Unitary.identity_eq two_pos
  have hcos := Real.one_sub_sq_div_two_le_cos (x := 1 / 5)
  obtain ⟨c, hc, he, -⟩ := C67_sharp (1 / 5) (by linarith) (turn_exact _) h1 (turn_toMatrix _)
  have hx : ∀ x : Fin 2, idealOutputProbs (turn (1 / 5)).matrix x x = Real.cos (1 / 5) ^ 2 := by
    intro x
    rw [idealOutputProbs_eq, turn_toMatrix]
    fin_cases x <;> simp [-Complex.ofReal_cos]
  have hlt : Real.cos (1 / 5) < 1 := by
    have := Real.cos_lt_cos_of_nonneg_of_le_pi_div_two le_rfl
      (by have := Real.two_le_pi; linarith : (1 / 5 : ℝ) ≤ Real.pi / 2) (by norm_num : (0 : ℝ) < 1 / 5)
    rwa [Real.cos_zero] at this
  have hc2 : c ≤ 0.02 := by
    have htr := distance_identity (turn_exact (1 / 5)) h1 hc
    have e : ‖((turn (1 / 5)).matrix.toMatrix 2).trace‖ = 2 * Real.cos (1 / 5) := by
      rw [turn_toMatrix, trace_fin_two]
      simp only [of_apply, cons_val', cons_val_zero, cons_val_one]
      rw [← two_mul, norm_mul, Complex.norm_real, Real.norm_of_nonneg (by linarith)]
      simp
    rw [e] at htr
    push_cast at htr
    norm_num at hcos ⊢
    linarith
  refine ⟨_, c, h1, hc, hc2, C67_default_error (turn_exact _) h1 hc hc2, fun x => ?_⟩
  rw [hx]
  have : 0 ≤ Real.cos (1 / 5) := by linarith
  nlinarith

/-- C67: two random gates that undo each other, so that the compilation stops at once, for all random outcomes. -/
example (rng : Rng) : ∃ R w', generateRavSequence 0 2 [zPrim] false 2 (some 1) (1 / 2) none 5 (zClient rng).world =
      (.ok R, w') ∧ (R.costByStep.length : ℤ) < 5 ∧ ReturnGuarantee 1 1 R w' ∧
    ∃ v, w'.view R.sequence = some v ∧ v.entries = [zGate, zGate] := by
  have hs := zSession 0 rng (1 / 2) 1
  have hplan := C42_rav_is_plan hs (zClient_entries rng) (n := 1) (arr := false) zPrims_valid (by simp) (by simp)
    (L := 2) (by norm_num) (t := 1) ⟨by norm_num, le_rfl⟩ (1 / 2) none 5
  have h4 : ∀ r, Metropolis.one (Compiler.createRandomEntryVal 0 (2 ^ 1) [zPrim] none) r =
      (.ok [zGate], { r with npos := r.npos + 2 }) := fun r =>
    Metropolis.one_ok_iff.mpr ⟨zGate, zPrim_gen 0 2 r, rfl⟩
  have h5 : ∀ r, Rav.blocks (Metropolis.one (Compiler.createRandomEntryVal 0 (2 ^ 1) [zPrim] none)) 2 r =
      (.ok [zGate, zGate], { r with npos := r.npos + 4 }) := by
    intro r
    simp only [Rav.blocks]
    rw [PyM.bind_of_ok (h4 _)]
    simp only [PyM.bind_assoc', PyM.pure_bind']
    rw [PyM.bind_of_ok (h4 _)]
    rfl
  have hz : circuit 1 [zGate, zGate] = -1 := by
    have h : zGate.op 1 = !![-Complex.I, 0; 0, Complex.I] := by
      have e : Complex.exp ((Real.pi / 2 : ℝ) * Complex.I) = Complex.I := by
        rw [Complex.exp_mul_I, ← Complex.ofReal_cos, ← Complex.ofReal_sin]; simp
      have e' : Complex.exp (-((Real.pi / 2 : ℝ) : ℂ) * Complex.I) = -Complex.I := by
        rw [neg_mul, Complex.exp_neg, e, Complex.inv_I]
      have : zGate.op 1 = (tinyPhase (Real.pi / 2)).matrix.toMatrix 2 := by
        unfold EntryVal.op
        ext i j
        fin_cases i <;> fin_cases j <;> simp [embed, AgreeOff, gather, qubit, zGate]
      rw [this, tinyPhase_toMatrix, e, e']
    unfold circuit circuit circuit
    rw [h, one_mul]
    ext i j
    fin_cases i <;> fin_cases j <;> simp [Matrix.mul_apply, Fin.sum_univ_two]
  have hcost : Metropolis.cost 1 (circuit 1 [zGate, zGate])ᴴ [] = 0 := by
    unfold Metropolis.cost overlap
    rw [hz]
    simp [circuit]
  have hp : Rav.plan 1 (Rav.blocks (Metropolis.one (Compiler.createRandomEntryVal 0 (2 ^ 1) [zPrim] none)) (2 : ℤ).toNat)
      ((ravCompiler (2 ^ 1) [zPrim] false none (1 / 2) 0).proposal 0) 0.1 (((2 : ℝ) ^ 2 ^ 1) ^ 2) (some 1)
      ((1 : ℝ) = 0 ∨ (5 : ℤ) = 0) 5 (zClient rng).world.rng =
      (.ok ([zGate, zGate], []), { (zClient rng).world.rng with npos := (zClient rng).world.rng.npos + 4 }) := by
    unfold Rav.plan
    rw [show ((2 : ℤ).toNat) = 2 from rfl, PyM.bind_of_ok (h5 _), if_neg (by norm_num),
      show ((5 : ℤ).toNat) = 4 + 1 from rfl, Metropolis.run, if_pos]
    · rfl
    · simp only [hcost, Metropolis.GoodEnough]; norm_num
  unfold FollowsPlan at hplan
  rw [hp] at hplan
  obtain ⟨-, R, k1, k2, ⟨undo, k3⟩, -, -⟩ := hplan
  have hm : (R.costByStep.length : ℤ) < 5 := by rw [k2]; simp
  exact ⟨R, _, Prod.ext k1 rfl, hm, C67_rav hs (zClient_entries rng) zPrims_valid (by simp) (by simp) (by norm_num)
    ⟨one_pos, le_rfl⟩ (Prod.ext k1 rfl) hm, _, k3, rfl⟩

end Stoq
