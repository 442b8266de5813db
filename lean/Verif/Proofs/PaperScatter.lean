import Verif.Model.PaperScatter
import Verif.Proofs.PaperFidelity

/-!
# Lemmas for repeated simulated experiments
-/

namespace Stoq

open MeasureTheory ProbabilityTheory

local notation "I" => Set.Ico (0 : ℝ) 1

namespace Paper

/-! ## Sums over sets of independent numbers -/

theorem tape_sum {g : I → ℝ} (hg : Measurable g) {C : ℝ} (hC : ∀ u, |g u| ≤ C) (T : Finset ℕ) (c d : ℝ) :
    MemLp (fun ω : ℕ → I => c * ∑ t ∈ T, g (ω t) + d) 2 uniformTape ∧
    ∫ ω : ℕ → I, (c * ∑ t ∈ T, g (ω t) + d) ^ 2 ∂uniformTape =
      c ^ 2 * (T.card * Var[g; uniformUnit]) + (c * (T.card * ∫ u, g u ∂uniformUnit) + d) ^ 2 := by
  have hm := memLp_of_bounded hg hC
  have hmem : ∀ t ∈ T, MemLp (fun ω : ℕ → I => g (ω t)) 2 uniformTape := fun t _ => tape_memLp hm _
  have hsum : MemLp (fun ω : ℕ → I => ∑ t ∈ T, g (ω t)) 2 uniformTape := memLp_finsetSum _ hmem
  have hmeas : Measurable fun ω : ℕ → I => ∑ t ∈ T, g (ω t) :=
    Finset.measurable_sum _ fun k _ => hg.comp (measurable_pi_apply _)
  have hL : MemLp (fun ω : ℕ → I => c * ∑ t ∈ T, g (ω t) + d) 2 uniformTape :=
    (hsum.const_mul c).add (memLp_const d)
  have hmean : ∫ ω : ℕ → I, (c * ∑ t ∈ T, g (ω t) + d) ∂uniformTape = c * (T.card * ∫ u, g u ∂uniformUnit) + d := by
    rw [integral_add ((hsum.const_mul c).integrable one_le_two) (integrable_const d), integral_const_mul,
      integral_finsetSum _ fun k hk => (hmem k hk).integrable one_le_two]
    simp only [tape_integral hg, Finset.sum_const, nsmul_eq_mul, integral_const,
      probReal_univ, one_smul]
  have hvar : Var[fun ω : ℕ → I => c * ∑ t ∈ T, g (ω t) + d; uniformTape] = c ^ 2 * (T.card * Var[g; uniformUnit]) := by
    rw [variance_add_const (hmeas.const_mul c).aestronglyMeasurable, variance_const_mul]
    congr 1
    have hind : iIndepFun (fun (i : ℕ) (ω : ℕ → I) => g (ω i)) uniformTape :=
      iIndepFun_infinitePi (P := fun _ => uniformUnit) (X := fun _ => g) fun _ => hg
    have key : (fun ω : ℕ → I => ∑ t ∈ T, g (ω t)) = ∑ t ∈ T, fun ω : ℕ → I => g (ω t) := by
      funext ω; rw [Finset.sum_apply]
    rw [key, IndepFun.variance_sum hmem]
    · simp only [tape_variance hg, Finset.sum_const, nsmul_eq_mul]
    · intro i _ j _ hij
      exact hind.indepFun hij
  refine ⟨hL, ?_⟩
  have h := variance_eq_sub hL
  rw [hmean, hvar] at h
  have e : ((fun ω : ℕ → I => c * ∑ t ∈ T, g (ω t) + d) ^ 2) = fun ω : ℕ → I => (c * ∑ t ∈ T, g (ω t) + d) ^ 2 := rfl
  rw [e] at h
  linarith

/-! ## Blocks of numbers -/

/-- The value of a repetition whose numbers begin at `u`. -/
noncomputable def blockValue (g : I → ℝ) (K off : ℕ) (c d : ℝ) (u : ℕ) (ω : ℕ → I) : ℝ :=
  c * ∑ k ∈ Finset.range K, g (ω (u + off + k)) + d

/-- A repetition takes `L` numbers and is an affine function of a sum over `K` of them. -/
structure Block (m : PyM Rng ℝ) (g : I → ℝ) (K off L : ℕ) (c d : ℝ) : Prop where
  fits : off + K ≤ L
  run : ∀ ω nat u n, m ⟨ω, nat, u, n⟩ = (.ok (blockValue g K off c d u ω), ⟨ω, nat, u + L, n⟩)

theorem Block.repeatRuns {m : PyM Rng ℝ} {g : I → ℝ} {K off L : ℕ} {c d : ℝ} (h : Block m g K off L c d) (R : ℕ) (ω : ℕ → I)
    (nat : ℕ → ℕ) (u n : ℕ) :
    repeatRuns m R ⟨ω, nat, u, n⟩ =
      (.ok ((List.range R).map fun i => blockValue g K off c d (u + i * L) ω), ⟨ω, nat, u + R * L, n⟩) := by
  induction R generalizing u with
  | zero =>
    rw [Nat.zero_mul]
    rfl
  | succ R ih =>
    rw [Paper.repeatRuns, PyM.bind_of_ok (h.run ω nat u n), PyM.bind_of_ok (ih (u + L)), List.range_succ_eq_map]
    simp only [List.map_cons, List.map_map, Nat.zero_mul, Nat.add_zero]
    refine Prod.ext (congrArg Except.ok (congrArg (List.cons _) (List.map_congr_left fun k _ => ?_))) ?_
    · simp only [Function.comp]
      rw [show u + L + k * L = u + k.succ * L by rw [Nat.succ_mul]; omega]
    · change (⟨ω, nat, u + L + R * L, n⟩ : Rng) = ⟨ω, nat, u + (R + 1) * L, n⟩
      rw [show u + L + R * L = u + (R + 1) * L by rw [Nat.succ_mul]; omega]

/-- The values of a row of repetitions, and their squared `np.std`. -/
theorem std_sq (R : ℕ) (hR : 0 < R) (y : ℕ → ℝ) :
    std ((List.range R).map y) ^ 2 =
      (∑ i ∈ Finset.range R, y i ^ 2) / R - ((∑ i ∈ Finset.range R, y i) / R) ^ 2 := by
  have hR' : (R : ℝ) ≠ 0 := Nat.cast_ne_zero.mpr hR.ne'
  have hmean : mean ((List.range R).map y) = (∑ i ∈ Finset.range R, y i) / R := by
    rw [mean, sum_map_range, List.length_map, List.length_range]
  have hsq : mean (((List.range R).map y).map fun z => (z - mean ((List.range R).map y)) ^ 2) =
      (∑ i ∈ Finset.range R, (y i - (∑ i ∈ Finset.range R, y i) / R) ^ 2) / R := by
    rw [hmean, List.map_map, mean, List.length_map, List.length_range, sum_map_range]
    rfl
  unfold std
  rw [hsq, Real.sq_sqrt (div_nonneg (Finset.sum_nonneg fun i _ => sq_nonneg _) (Nat.cast_nonneg _))]
  set s := ∑ i ∈ Finset.range R, y i with hs
  have e : ∀ i, (y i - s / R) ^ 2 = y i ^ 2 - 2 * (s / R) * y i + (s / R) ^ 2 := fun i => by ring
  simp only [e]
  rw [Finset.sum_add_distrib, Finset.sum_sub_distrib, ← Finset.mul_sum, ← hs, Finset.sum_const, Finset.card_range, nsmul_eq_mul]
  field_simp
  ring

/-- The mean of the squared `np.std` of `R` repetitions is `1 - 1/R` times the variance of one. -/
theorem scatter {g : I → ℝ} (hg : Measurable g) {C : ℝ} (hC : ∀ u, |g u| ≤ C) {K off L : ℕ} (hfit : off + K ≤ L) (c d : ℝ)
    {R : ℕ} (hR : 0 < R) (u : ℕ) :
    MemLp (fun ω : ℕ → I => std ((List.range R).map fun i => blockValue g K off c d (u + i * L) ω)) 2 uniformTape ∧
    ∫ ω : ℕ → I, std ((List.range R).map fun i => blockValue g K off c d (u + i * L) ω) ^ 2 ∂uniformTape =
      (1 - 1 / R) * (c ^ 2 * (K * Var[g; uniformUnit])) := by
  have hR' : (R : ℝ) ≠ 0 := Nat.cast_ne_zero.mpr hR.ne'
  set T : ℕ → Finset ℕ := fun i => Finset.Ico (u + i * L + off) (u + i * L + off + K) with hT
  have hY : ∀ i (ω : ℕ → I), blockValue g K off c d (u + i * L) ω = c * ∑ t ∈ T i, g (ω t) + d := fun i ω => by
    rw [blockValue, hT]
    dsimp only
    rw [Finset.sum_Ico_eq_sum_range, Nat.add_sub_cancel_left]
  have hcard : ∀ i, (T i).card = K := fun i => by
    rw [hT]
    dsimp only
    rw [Nat.card_Ico, Nat.add_sub_cancel_left]
  have hdisj : ∀ i ∈ Finset.range R, ∀ j ∈ Finset.range R, i ≠ j → Disjoint (T i) (T j) := by
    have hlt : ∀ i j, i < j → Disjoint (T i) (T j) := fun i j hij => by
      have hle : (i + 1) * L ≤ j * L := Nat.mul_le_mul_right L hij
      rw [Nat.succ_mul] at hle
      rw [Finset.disjoint_left]
      intro t h1 h2
      have h1 := Finset.mem_Ico.mp h1
      have h2 := Finset.mem_Ico.mp h2
      omega
    intro i _ j _ hij
    rcases Nat.lt_or_gt_of_ne hij with h | h
    · exact hlt i j h
    · exact (hlt j i h).symm
  set U : Finset ℕ := (Finset.range R).biUnion T with hU
  have hUcard : U.card = R * K := by
    rw [hU, Finset.card_biUnion hdisj]
    simp only [hcard, Finset.sum_const, Finset.card_range, smul_eq_mul]
  have hUsum : ∀ ω : ℕ → I, (∑ i ∈ Finset.range R, (c * ∑ t ∈ T i, g (ω t) + d)) / R =
      c / R * ∑ t ∈ U, g (ω t) + d := fun ω => by
    rw [hU, Finset.sum_biUnion hdisj, Finset.sum_add_distrib, ← Finset.mul_sum, Finset.sum_const, Finset.card_range, nsmul_eq_mul]
    field_simp
  have hsq : ∀ ω : ℕ → I, std ((List.range R).map fun i => blockValue g K off c d (u + i * L) ω) ^ 2 =
      (∑ i ∈ Finset.range R, (c * ∑ t ∈ T i, g (ω t) + d) ^ 2) / R - (c / R * ∑ t ∈ U, g (ω t) + d) ^ 2 := fun ω => by
    rw [std_sq R hR]
    simp only [hY]
    rw [hUsum]
  have hint : ∀ (T : Finset ℕ) (c : ℝ), Integrable (fun ω : ℕ → I => (c * ∑ t ∈ T, g (ω t) + d) ^ 2) uniformTape := fun T c =>
    (tape_sum hg hC T c d).1.integrable_sq
  have hint1 : Integrable (fun ω : ℕ → I => (∑ i ∈ Finset.range R, (c * ∑ t ∈ T i, g (ω t) + d) ^ 2) / R) uniformTape :=
    (integrable_finsetSum _ fun i _ => hint (T i) c).div_const _
  have hmeas : Measurable fun ω : ℕ → I => std ((List.range R).map fun i => blockValue g K off c d (u + i * L) ω) := by
    have e : (fun ω : ℕ → I => std ((List.range R).map fun i => blockValue g K off c d (u + i * L) ω)) =
        fun ω => √((∑ i ∈ Finset.range R, (c * ∑ t ∈ T i, g (ω t) + d) ^ 2) / R - (c / R * ∑ t ∈ U, g (ω t) + d) ^ 2) := by
      funext ω
      rw [← hsq]
      exact (Real.sqrt_sq (Real.sqrt_nonneg _)).symm
    rw [e]
    have hm : ∀ (T : Finset ℕ) (c : ℝ), Measurable fun ω : ℕ → I => (c * ∑ t ∈ T, g (ω t) + d) ^ 2 := fun T c =>
      have hs : Measurable fun ω : ℕ → I => ∑ t ∈ T, g (ω t) := Finset.measurable_sum _ fun k _ => hg.comp (measurable_pi_apply _)
      ((hs.const_mul c).add_const d).pow_const 2
    exact (((Finset.measurable_sum _ fun i _ => hm (T i) c).div_const _).sub (hm U _)).sqrt
  refine ⟨(memLp_two_iff_integrable_sq hmeas.aestronglyMeasurable).mpr ?_, ?_⟩
  · simp only [hsq]
    exact hint1.sub (hint U _)
  · simp only [hsq]
    rw [integral_sub hint1 (hint U _), integral_div, integral_finsetSum _ fun i _ => hint (T i) c]
    simp only [(tape_sum hg hC _ _ d).2, hcard, hUcard, Finset.sum_const, Finset.card_range, nsmul_eq_mul]
    push_cast
    field_simp
    ring

/-! ## The data of all numbers of shots -/

variable {rep : ℕ → PyM Rng ℝ} {g : ℕ → I → ℝ} {off L : ℕ → ℕ} {c d : ℕ → ℝ}

/-- The data, with the position on the tape. -/
noncomputable def dataOf (g : ℕ → I → ℝ) (off L : ℕ → ℕ) (c d : ℕ → ℝ) (R : ℕ) : List ℕ → ℕ → (ℕ → I) → List (ℕ × ℝ)
  | [], _, _ => []
  | K :: shots, u, ω => ((List.range R).map fun i => blockValue (g K) K (off K) (c K) (d K) (u + i * L K) ω).map (fun y => (K, y)) ++
      dataOf g off L c d R shots (u + R * L K) ω

/-- A program whose result is a function of the tape and the position, and which takes `len` numbers. -/
def Steady {α : Type} (m : PyM Rng α) (S : ℕ → (ℕ → I) → α) (len : ℕ) : Prop :=
  ∀ ω nat u n, m ⟨ω, nat, u, n⟩ = (.ok (S u ω), ⟨ω, nat, u + len, n⟩)

theorem shotData_eq {shots : List ℕ} (h : ∀ K ∈ shots, Block (rep K) (g K) K (off K) (L K) (c K) (d K)) (R : ℕ) :
    ∃ len, Steady (shotData rep R shots) (dataOf g off L c d R shots) len := by
  induction shots with
  | nil => exact ⟨0, fun ω nat u n => rfl⟩
  | cons K shots ih =>
    obtain ⟨len, hlen⟩ := ih fun K' hK' => h K' (List.mem_cons_of_mem _ hK')
    refine ⟨R * L K + len, fun ω nat u n => ?_⟩
    rw [shotData, PyM.bind_of_ok ((h K List.mem_cons_self).repeatRuns R ω nat u n), PyM.bind_of_ok (hlen ω nat _ n), ← Nat.add_assoc]
    rfl

theorem mem_dataOf {R : ℕ} {shots : List ℕ} {u : ℕ} {ω : ℕ → I} {p : ℕ × ℝ} (h : p ∈ dataOf g off L c d R shots u ω) :
    p.1 ∈ shots := by
  induction shots generalizing u with
  | nil => cases h
  | cons K shots ih =>
    rw [dataOf, List.mem_append] at h
    rcases h with h | h
    · obtain ⟨y, -, rfl⟩ := List.mem_map.mp h
      exact List.mem_cons_self
    · exact List.mem_cons_of_mem _ (ih h)

theorem filter_dataOf {R : ℕ} {shots : List ℕ} (hn : shots.Nodup) {K : ℕ} (hK : K ∈ shots) (u : ℕ) :
    ∃ u', ∀ ω, ((dataOf g off L c d R shots u ω).filter fun p => p.1 = K).map Prod.snd =
      (List.range R).map fun i => blockValue (g K) K (off K) (c K) (d K) (u' + i * L K) ω := by
  induction shots generalizing u with
  | nil => cases hK
  | cons K' shots ih =>
    rw [List.nodup_cons] at hn
    by_cases hKK : K' = K
    · subst hKK
      refine ⟨u, fun ω => ?_⟩
      rw [dataOf, List.filter_append, List.map_append]
      have h1 : (((List.range R).map fun i => blockValue (g K') K' (off K') (c K') (d K') (u + i * L K') ω).map
          (fun y => (K', y))).filter (fun p : ℕ × ℝ => p.1 = K') =
          ((List.range R).map fun i => blockValue (g K') K' (off K') (c K') (d K') (u + i * L K') ω).map (fun y => (K', y)) := by
        refine List.filter_eq_self.mpr fun p hp => ?_
        obtain ⟨y, -, rfl⟩ := List.mem_map.mp hp
        simp
      have h2 : (dataOf g off L c d R shots (u + R * L K') ω).filter (fun p : ℕ × ℝ => p.1 = K') = [] := by
        refine List.filter_eq_nil_iff.mpr fun p hp => ?_
        have := mem_dataOf hp
        simp only [decide_eq_true_eq]
        rintro rfl
        exact hn.1 this
      rw [h1, h2, List.map_nil, List.append_nil, List.map_map]
      exact List.map_id _
    · obtain ⟨u', hu'⟩ := ih hn.2 ((List.mem_cons.mp hK).resolve_left fun h => hKK h.symm) (u + R * L K')
      refine ⟨u', fun ω => ?_⟩
      rw [dataOf, List.filter_append, List.map_append, hu']
      have h1 : (((List.range R).map fun i => blockValue (g K') K' (off K') (c K') (d K') (u + i * L K') ω).map
          (fun y => (K', y))).filter (fun p : ℕ × ℝ => p.1 = K) = [] := by
        refine List.filter_eq_nil_iff.mpr fun p hp => ?_
        obtain ⟨y, -, rfl⟩ := List.mem_map.mp hp
        simpa using hKK
      rw [h1, List.map_nil, List.nil_append]

/-! ## The two kinds of repetitions -/

theorem Estimates.unique {m : PyM Rng ℝ} {a b v w : ℝ} (h : Rng.Estimates m a v) (h' : Rng.Estimates m b w) : v = w := by
  obtain ⟨X, hX, -, -, -, hv⟩ := h (fun _ => 0) 0 0
  obtain ⟨Y, hY, -, -, -, hw⟩ := h' (fun _ => 0) 0 0
  have : X = Y := by
    funext ω
    exact Except.ok.inj ((hX ω).symm.trans (hY ω))
  rw [← hv, ← hw, this]

theorem Block.variance {m : PyM Rng ℝ} {g : I → ℝ} (hg : Measurable g) {C : ℝ} (hC : ∀ u, |g u| ≤ C) {K off L : ℕ} {c d : ℝ}
    (h : Block m g K off L c d) {a v : ℝ} (he : Rng.Estimates m a v) : c ^ 2 * (K * Var[g; uniformUnit]) = v :=
  Estimates.unique (Rng.Estimates.of_sum hg hC K off c d fun ω nat u n => by rw [h.run]; rfl) he

theorem block_rav {D : ℕ} {m : Arr} (hm : m.toMatrix D ∈ Matrix.unitaryGroup (Fin D) ℂ) (start : Fin D) (f : ℝ) (K : ℕ) :
    Block (ravRepetition m start f K) (coin (outputProbs f (idealOutputProbs m start) start)) K 0 K
      (D / (D - 1) / K) (-(1 / D) * (D / (D - 1))) where
  fits := by omega
  run ω nat u n := by
    have h := isDistribution_ideal hm start
    obtain ⟨l, h1, h2⟩ := bernoulliShots_mean (p := outputProbs f (idealOutputProbs m start) start) (K := K) (r := ⟨ω, nat, u, n⟩)
    unfold ravRepetition
    rw [assert_bind (isclose_one_of h.2), PyM.bind_of_ok h1]
    refine Prod.ext (congrArg Except.ok ?_) rfl
    rw [scaledFidelity, h2, blockValue]
    simp only [Nat.add_zero]
    ring

theorem block_xeb {D : ℕ} {m : Arr} (hm : m.toMatrix D ∈ Matrix.unitaryGroup (Fin D) ℂ) (start : Fin D)
    (hu : ¬ IsUniform (idealOutputProbs m start)) {f : ℝ} (h0 : 0 ≤ f) (h1 : f ≤ 1) :
    ∃ g : I → ℝ, Measurable g ∧ (∀ u, |g u| ≤ 1) ∧ ∀ K, 0 < K → Block (xebRepetition m start f K) g K K (2 * K)
      (1 / (K * (∑ x, idealOutputProbs m start x ^ 2 - 1 / D))) (-(1 / D) / (∑ x, idealOutputProbs m start x ^ 2 - 1 / D)) := by
  have h := isDistribution_ideal hm start
  have hq := isDistribution_outputProbs h h0 h1
  have hd := mt (sum_sq_eq_iff h).mp hu
  obtain ⟨shot, hs1, hs2, hs3, hs4⟩ := choiceSize_shots hq
  refine ⟨fun u => idealOutputProbs m start (shot u), (Measurable.of_discrete (f := idealOutputProbs m start)).comp hs1,
    fun u => ?_, fun K hK => ⟨by omega, fun ω nat upos npos => ?_⟩⟩
  · rw [abs_of_nonneg (h.1 _)]; exact IsDistribution.le_one h _
  · have hK' : (K : ℝ) ≠ 0 := Nat.cast_ne_zero.mpr hK.ne'
    have e1 := measurementProbs_sum (fun k => shot (ω (upos + K + k))) hK
    have e2 := measurementProbs_expect (fun k => shot (ω (upos + K + k))) K (idealOutputProbs m start)
    unfold xebRepetition
    simp only []
    rw [assert_bind (isclose_one_of h.2), PyM.bind_of_ok (bernoulliShots_eq _ K ⟨ω, nat, upos, npos⟩), PyM.bind_of_ok (hs4 K _)]
    simp only []
    rw [assert_bind (isclose_one_of e1)]
    refine Prod.ext (congrArg Except.ok ?_) ?_
    · rw [xebFidelity_eq h hu, e2, blockValue]
      field_simp
      ring
    · change (⟨ω, nat, upos + K + K, npos⟩ : Rng) = ⟨ω, nat, upos + 2 * K, npos⟩
      rw [show upos + K + K = upos + 2 * K by omega]

end Paper

end Stoq
