import Verif.Model.PaperFidelity
import Verif.Spec.Basic
import Verif.Spec.PaperFidelity
import Verif.Proofs.Probability

/-!
# Lemmas for the fidelity estimates of the paper
-/

namespace Stoq

open MeasureTheory ProbabilityTheory

local notation "I" => Set.Ico (0 : ℝ) 1

namespace Paper

/-! ## Distributions -/

theorem IsDistribution.pos {D : ℕ} {p : Fin D → ℝ} (h : IsDistribution p) : 0 < D := by
  rcases Nat.eq_zero_or_pos D with rfl | hD
  · have := h.2; simp at this
  · exact hD

theorem IsDistribution.le_one {D : ℕ} {p : Fin D → ℝ} (h : IsDistribution p) (x : Fin D) : p x ≤ 1 := by
  rw [← h.2]
  exact Finset.single_le_sum (fun y _ => h.1 y) (Finset.mem_univ x)

theorem isDistribution_outputProbs {D : ℕ} {ideal : Fin D → ℝ} (h : IsDistribution ideal) {f : ℝ} (h0 : 0 ≤ f)
    (h1 : f ≤ 1) : IsDistribution (outputProbs f ideal) := by
  have hD : (D : ℝ) ≠ 0 := Nat.cast_ne_zero.mpr (IsDistribution.pos h).ne'
  refine ⟨fun x => add_nonneg (mul_nonneg (by linarith) (h.1 x)) (by positivity), ?_⟩
  unfold outputProbs
  rw [Finset.sum_add_distrib, ← Finset.mul_sum, h.2, Finset.sum_const, Finset.card_univ, Fintype.card_fin,
    nsmul_eq_mul]
  field_simp
  ring

/-- The distance from the uniform distribution. -/
theorem sum_sq_sub {D : ℕ} {p : Fin D → ℝ} (h : IsDistribution p) :
    ∑ x, (p x - 1 / D) ^ 2 = ∑ x, p x ^ 2 - 1 / D := by
  have hD : (D : ℝ) ≠ 0 := Nat.cast_ne_zero.mpr (IsDistribution.pos h).ne'
  have : ∀ x, (p x - 1 / D) ^ 2 = p x ^ 2 - 2 / D * p x + 1 / D ^ 2 := fun x => by ring
  simp only [this]
  rw [Finset.sum_add_distrib, Finset.sum_sub_distrib, ← Finset.mul_sum, h.2, Finset.sum_const, Finset.card_univ,
    Fintype.card_fin, nsmul_eq_mul]
  field_simp
  ring

theorem sum_sq_eq_iff {D : ℕ} {p : Fin D → ℝ} (h : IsDistribution p) :
    ∑ x, p x ^ 2 - 1 / D = 0 ↔ IsUniform p := by
  rw [← sum_sq_sub h, Finset.sum_eq_zero_iff_of_nonneg fun x _ => sq_nonneg _]
  constructor
  · intro hx x
    have := hx x (Finset.mem_univ x)
    rw [sq_eq_zero_iff] at this
    linarith
  · intro hx x _
    rw [hx x, sub_self, sq, zero_mul]

theorem xebFidelity_eq {D : ℕ} {ideal : Fin D → ℝ} (h : IsDistribution ideal) (hu : ¬ IsUniform ideal)
    (q : Fin D → ℝ) :
    xebFidelity ideal q = (expect q ideal - 1 / D) / (∑ x, ideal x ^ 2 - 1 / D) := by
  have h0 := mt (sum_sq_eq_iff h).mp hu
  have e : ∑ x, ideal x * q x = expect q ideal := Finset.sum_congr rfl fun x _ => mul_comm _ _
  unfold xebFidelity
  simp only [h.2, e]
  rw [sq, mul_div_mul_left _ _ h0]

theorem expect_outputProbs {D : ℕ} {ideal : Fin D → ℝ} (h : IsDistribution ideal) (f : ℝ) :
    expect (outputProbs f ideal) ideal = (1 - f) * ∑ x, ideal x ^ 2 + f / D := by
  unfold expect outputProbs
  simp only [add_mul, Finset.sum_add_distrib, mul_assoc, ← Finset.mul_sum, h.2, ← sq]
  ring

theorem idealOutputProbs_eq {D : ℕ} (m : Arr) (start x : Fin D) :
    idealOutputProbs m start x = ‖m.toMatrix D x start‖ ^ 2 := by
  unfold idealOutputProbs Matrix.mulVec dotProduct
  simp only [mul_ite, mul_one, mul_zero, Finset.sum_ite_eq', Finset.mem_univ, if_true]

theorem isDistribution_ideal {D : ℕ} {m : Arr} (h : m.toMatrix D ∈ Matrix.unitaryGroup (Fin D) ℂ) (start : Fin D) :
    IsDistribution (idealOutputProbs m start) := by
  refine ⟨fun x => by unfold idealOutputProbs; positivity, ?_⟩
  simp only [idealOutputProbs_eq]
  have h1 := congrFun (congrFun (Matrix.mem_unitaryGroup_iff'.mp h) start) start
  rw [Matrix.mul_apply, Matrix.one_apply_eq] at h1
  have h2 : ((∑ x, ‖m.toMatrix D x start‖ ^ 2 : ℝ) : ℂ) = 1 := by
    rw [← h1]
    push_cast
    refine Finset.sum_congr rfl fun x _ => ?_
    rw [Matrix.star_apply, Complex.star_def, ← Complex.normSq_eq_conj_mul_self, Complex.normSq_eq_norm_sq]
    push_cast; rfl
  exact_mod_cast h2

theorem isclose_one_of {D : ℕ} {p : Fin D → ℝ} (h : ∑ x, p x = 1) : isclose ((∑ x, p x : ℝ) : ℂ) 1 := by
  rw [h, isclose]; norm_num

/-! ## The simulated experiments -/

theorem assert_bind {α : Type} {p : Prop} (hp : p) (f : Unit → PyM Rng α) : (PyM.assert p >>= f) = f () := by
  unfold PyM.assert assertE
  rw [if_pos hp]; rfl

theorem bernoulliShots_eq (p : ℝ) (n : ℕ) (r : Rng) :
    bernoulliShots p n r = (.ok ((List.range n).map fun k =>
      open Classical in if ((r.unif (r.upos + k) : I) : ℝ) < p then 1 else 0), { r with upos := r.upos + n }) := by
  induction n generalizing r with
  | zero => rfl
  | succ n ih =>
    rw [bernoulliShots, PyM.bind_of_ok (Rng.randomSample_eq r), PyM.bind_of_ok (ih _), List.range_succ_eq_map]
    simp only [List.map_cons, List.map_map, Nat.add_zero]
    refine Prod.ext ?_ ?_
    · refine congrArg Except.ok (congrArg (List.cons _) (List.map_congr_left fun k _ => ?_))
      simp only [Function.comp, Nat.succ_eq_add_one]
      rw [show r.upos + 1 + k = r.upos + (k + 1) by omega]
    · change ({ r with upos := r.upos + 1 + n } : Rng) = { r with upos := r.upos + (n + 1) }
      rw [show r.upos + 1 + n = r.upos + (n + 1) by omega]

theorem randomSamples_eq (n : ℕ) (r : Rng) :
    randomSamples n r = (.ok ((List.range n).map fun k => ((r.unif (r.upos + k) : I) : ℝ)),
      { r with upos := r.upos + n }) := by
  induction n generalizing r with
  | zero => rfl
  | succ n ih =>
    rw [randomSamples, PyM.bind_of_ok (Rng.randomSample_eq r), PyM.bind_of_ok (ih _), List.range_succ_eq_map]
    simp only [List.map_cons, List.map_map, Nat.add_zero]
    refine Prod.ext ?_ ?_
    · refine congrArg Except.ok (congrArg (List.cons _) (List.map_congr_left fun k _ => ?_))
      simp only [Function.comp, Nat.succ_eq_add_one]
      rw [show r.upos + 1 + k = r.upos + (k + 1) by omega]
    · change ({ r with upos := r.upos + 1 + n } : Rng) = { r with upos := r.upos + (n + 1) }
      rw [show r.upos + 1 + n = r.upos + (n + 1) by omega]

theorem choiceSize_eq {n : ℕ} {p : List ℝ} (h : Rng.ValidP n p) (size : ℕ) (r : Rng) :
    choiceSize n p size r = (.ok ((List.range size).map fun k =>
      Rng.searchsortedRight ((Rng.cumsum p).map (· / p.sum)) (r.unif (r.upos + k))),
      { r with upos := r.upos + size }) := by
  unfold choiceSize
  rw [raiseUnless_of h.pos, raiseUnless_of h.len, raiseUnless_of h.nonneg, raiseUnless_of h.sum]
  change (randomSamples size >>= _) r = _
  rw [PyM.bind_of_ok (randomSamples_eq size r)]
  refine Prod.ext (congrArg Except.ok ?_) rfl
  rw [List.map_map]; rfl

theorem sum_map_range (n : ℕ) (g : ℕ → ℝ) : ((List.range n).map g).sum = ∑ k ∈ Finset.range n, g k := by
  induction n with
  | zero => simp
  | succ n ih => rw [List.range_succ, List.map_append, List.sum_append, ih, Finset.sum_range_succ]; simp

theorem sum_count {D : ℕ} (s : ℕ → Fin D) (K : ℕ) (a : Fin D → ℝ) :
    ∑ x : Fin D, (((List.range K).map fun k => (s k).val).count x.val : ℝ) * a x =
      ∑ k ∈ Finset.range K, a (s k) := by
  induction K with
  | zero => simp
  | succ K ih =>
    rw [List.range_succ, Finset.sum_range_succ, ← ih]
    simp only [List.map_append, List.count_append, Nat.cast_add, add_mul, Finset.sum_add_distrib, add_right_inj]
    rw [Finset.sum_eq_single (s K)]
    · simp
    · intro x _ hx
      have : (s K).val ≠ x.val := fun h => hx (Fin.ext h.symm)
      simp [this]
    · simp

/-- One shot: 1 with the probability `p`. -/
noncomputable def coin (p : ℝ) (u : I) : ℝ := open Classical in if (u : ℝ) < p then 1 else 0

theorem coin_eq (p : ℝ) : coin p = Set.indicator {u : I | 0 ≤ (u : ℝ) ∧ (u : ℝ) < p} 1 := by
  funext u
  unfold coin Set.indicator
  have := u.2.1
  simp only [Set.mem_ofPred_eq, this, true_and, Pi.one_apply]

theorem measurable_coin (p : ℝ) : Measurable (coin p) := by
  rw [coin_eq]; exact measurable_one.indicator (measurableSet_interval 0 p)

theorem coin_bounded (p : ℝ) (u : I) : |coin p u| ≤ 1 := by
  unfold coin; split_ifs <;> simp

theorem integral_coin {p : ℝ} (h0 : 0 ≤ p) (h1 : p ≤ 1) : ∫ u, coin p u ∂uniformUnit = p := by
  rw [coin_eq, integral_indicator_one (measurableSet_interval 0 p), uniformUnit_interval le_rfl h0 h1, sub_zero]

theorem variance_coin {p : ℝ} (h0 : 0 ≤ p) (h1 : p ≤ 1) : Var[coin p; uniformUnit] = p * (1 - p) := by
  have e : (coin p) ^ 2 = coin p := by
    funext u; simp only [Pi.pow_apply, coin]; split_ifs <;> simp
  rw [variance_eq_sub (memLp_of_bounded (measurable_coin p) (coin_bounded p)), e, integral_coin h0 h1]
  ring

theorem bernoulliShots_mean {p : ℝ} {K : ℕ} {r : Rng} :
    ∃ l, bernoulliShots p K r = (.ok l, { r with upos := r.upos + K }) ∧
      mean l = (∑ k ∈ Finset.range K, coin p (r.unif (r.upos + k))) / K := by
  refine ⟨_, bernoulliShots_eq p K r, ?_⟩
  unfold mean
  rw [sum_map_range, List.length_map, List.length_range]
  rfl

/-- An affine function of the fraction of successful shots. -/
theorem estimates_bernoulli {q : ℝ} (h0 : 0 ≤ q) (h1 : q ≤ 1) {K : ℕ} (hK : 0 < K) (F : List ℝ → ℝ) (c d : ℝ)
    (hF : ∀ l, F l = c * mean l + d) :
    Rng.Estimates (bernoulliShots q K >>= fun l => pure (F l)) (c * q + d) (c ^ 2 * (q * (1 - q) / K)) := by
  have hK' : (K : ℝ) ≠ 0 := Nat.cast_ne_zero.mpr hK.ne'
  have h := Rng.Estimates.of_sum (m := bernoulliShots q K >>= fun l => pure (F l)) (measurable_coin q)
    (coin_bounded q) K 0 (c / K) d fun ω nat upos npos => by
      obtain ⟨l, h1, h2⟩ := bernoulliShots_mean (p := q) (K := K) (r := ⟨ω, nat, upos, npos⟩)
      rw [PyM.bind_of_ok h1]
      change Except.ok (F l) = _
      rw [hF, h2]
      refine congrArg Except.ok ?_
      simp only [Nat.add_zero]
      ring
  rw [integral_coin h0 h1, variance_coin h0 h1] at h
  convert h using 1
  · field_simp
  · field_simp

theorem validP_ofFn {D : ℕ} {q : Fin D → ℝ} (h : IsDistribution q) : Rng.ValidP D (List.ofFn q) where
  pos := IsDistribution.pos h
  len := List.length_ofFn
  nonneg := by
    intro x hx
    obtain ⟨i, rfl⟩ := List.mem_ofFn.mp hx
    exact h.1 i
  sum := by rw [List.sum_ofFn, h.2]; norm_num

/-- Outcomes drawn with the probabilities `q`. -/
theorem choiceSize_shots {D : ℕ} {q : Fin D → ℝ} (h : IsDistribution q) :
    ∃ shot : I → Fin D, Measurable shot ∧
      (∀ a : Fin D → ℝ, ∫ u, a (shot u) ∂uniformUnit = expect q a) ∧
      (∀ a : Fin D → ℝ, Var[fun u => a (shot u); uniformUnit] = expect q (fun x => a x ^ 2) - expect q a ^ 2) ∧
      ∀ K r, choiceSize D (List.ofFn q) K r =
        (.ok ((List.range K).map fun k => (shot (r.unif (r.upos + k))).val), { r with upos := r.upos + K }) := by
  have hv := validP_ofFn h
  have hlt : ∀ u : I, Rng.searchsortedRight ((Rng.cumsum (List.ofFn q)).map (· / (List.ofFn q).sum)) u < D :=
    fun u => (Rng.search_spec hv u rfl).1
  have hshot : ∀ u : I, ChosenBy (List.ofFn q) u (⟨_, hlt u⟩ : Fin D) := fun u => (Rng.chosenBy_iff hv u).mpr rfl
  have hq : ∀ a : Fin D → ℝ, ∑ x : Fin D, ((List.ofFn q)[x.val]'(by rw [List.length_ofFn]; exact x.2)) /
      (List.ofFn q).sum * a x = expect q a := by
    intro a
    rw [List.sum_ofFn, h.2]
    simp [expect]
  refine ⟨fun u => ⟨_, hlt u⟩, (uniformUnit_draw hv hshot 0).1, fun a => ?_, fun a => ?_, fun K r => ?_⟩
  · rw [(uniformUnit_draw hv hshot a).2]; exact hq a
  · rw [uniformUnit_draw_variance hv hshot a, hq a]
    congr 1
    exact hq fun x => a x ^ 2
  · exact choiceSize_eq hv K r

theorem measurementProbs_sum {D : ℕ} (s : ℕ → Fin D) {K : ℕ} (hK : 0 < K) :
    ∑ x, measurementProbs (D := D) ((List.range K).map fun k => (s k).val) K x = 1 := by
  have hK' : (K : ℝ) ≠ 0 := Nat.cast_ne_zero.mpr hK.ne'
  have h := sum_count s K fun _ => 1
  simp only [mul_one, Finset.sum_const, Finset.card_range, nsmul_eq_mul] at h
  unfold measurementProbs
  rw [← Finset.sum_div, h, div_self hK']

theorem measurementProbs_expect {D : ℕ} (s : ℕ → Fin D) (K : ℕ) (a : Fin D → ℝ) :
    expect (measurementProbs (D := D) ((List.range K).map fun k => (s k).val) K) a =
      (∑ k ∈ Finset.range K, a (s k)) / K := by
  rw [← sum_count, expect, Finset.sum_div]
  refine Finset.sum_congr rfl fun x _ => ?_
  unfold measurementProbs
  ring

end Paper

end Stoq
