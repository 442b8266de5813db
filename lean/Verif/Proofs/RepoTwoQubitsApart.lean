import Verif.Proofs.RepoTwoQubitsSteps

/-! # The test of a Hamiltonian of two qubits: different Trotter steps are apart -/

namespace Stoq

open Matrix Tests MeasureTheory

open scoped Matrix.Norms.L2Operator

namespace Tests

/-- The kind of an order: `X⊗X` first, last, or between the other terms in one of two orders. -/
def kind (o : List ℕ) : Fin 4 :=
  if o = [0, 1, 2] ∨ o = [0, 2, 1] then 0 else if o = [2, 1, 0] ∨ o = [1, 2, 0] then 1 else if o = [1, 0, 2] then 2 else 3

/-- At most two orders are of the same kind. -/
theorem kind_two (k : Fin 4) : ∃ a b : List ℕ, ∀ o : List ℕ, o.Perm [0, 1, 2] → kind o = k → o = a ∨ o = b := by
  have key : ∃ a b : List ℕ, ∀ o ∈ [[0, 1, 2], [1, 0, 2], [2, 1, 0], [1, 2, 0], [2, 0, 1], [0, 2, 1]], kind o = k → o = a ∨ o = b := by
    fin_cases k
    · exact ⟨[0, 1, 2], [0, 2, 1], by decide⟩
    · exact ⟨[2, 1, 0], [1, 2, 0], by decide⟩
    · exact ⟨[1, 0, 2], [1, 0, 2], by decide⟩
    · exact ⟨[2, 0, 1], [2, 0, 1], by decide⟩
  obtain ⟨a, b, h⟩ := key
  exact ⟨a, b, fun o ho => h o (perm_three ho)⟩

/-- The step of a kind. -/
noncomputable def kindStep (ca sa cp sp cm sm : ℝ) (k : Fin 4) : Matrix (Fin 4) (Fin 4) ℂ :=
  if k = 0 then edge ca sa cp sp cm sm 1 else if k = 1 then edge ca sa cp sp cm sm (-1) else
    if k = 2 then middle ca sa cp sp cm sm (-1) else middle ca sa cp sp cm sm 1

theorem step4_kind {ca sa cp sp cm sm : ℝ} (h1 : Real.cos 0.1234 = ca) (h2 : Real.sin 0.1234 = sa) (h3 : Real.cos 0.16042 = cp)
    (h4 : Real.sin 0.16042 = sp) (h5 : Real.cos 0.02468 = cm) (h6 : Real.sin 0.02468 = sm) {o : List ℕ} (ho : o.Perm [0, 1, 2]) :
    step4 o = kindStep ca sa cp sp cm sm (kind o) := by
  obtain ⟨s1, s2, s3, s4, s5, s6⟩ := step4_eq h1 h2 h3 h4 h5 h6
  have := perm_three ho
  simp only [List.mem_cons, List.not_mem_nil, or_false] at this
  rcases this with rfl | rfl | rfl | rfl | rfl | rfl
  · exact s1
  · exact s5
  · exact s3
  · exact s4
  · exact s6
  · exact s2

theorem edge_edge {ca sa cp sp cm sm : ℝ} (g1 : ca ^ 2 + sa ^ 2 = 1) (g2 : cp ^ 2 + sp ^ 2 = 1) (g3 : cm ^ 2 + sm ^ 2 = 1) :
    overlap (edge ca sa cp sp cm sm 1) (edge ca sa cp sp cm sm (-1)) = |1 - sa ^ 2 * (sp ^ 2 + sm ^ 2)| ∧
    overlap (middle ca sa cp sp cm sm 1) (middle ca sa cp sp cm sm (-1)) = |1 - sa ^ 2 * (sp ^ 2 + sm ^ 2)| := by
  have h : ∀ r : ℝ, |2 * r| / 2 = |r| := fun r => by rw [abs_mul, abs_two]; ring
  constructor
  · unfold edge
    rw [sectors.overlap_eq, ← h (1 - _)]
    congr 2
    linear_combination (cp ^ 2 + sp ^ 2 + (cm ^ 2 + sm ^ 2)) * g1 + g2 + g3
  · unfold middle
    rw [sectors.overlap_eq, ← h (1 - _)]
    congr 2
    linear_combination (cp ^ 2 + sp ^ 2 + (cm ^ 2 + sm ^ 2)) * g1 + g2 + g3

theorem edge_middle {ca sa cp sp cm sm : ℝ} (g1 : ca ^ 2 + sa ^ 2 = 1) (g2 : cp ^ 2 + sp ^ 2 = 1) (g3 : cm ^ 2 + sm ^ 2 = 1)
    (ε ε' : ℝ) : overlap (edge ca sa cp sp cm sm ε) (middle ca sa cp sp cm sm ε') =
      |1 - sa ^ 2 * (1 - (cp * cm + ε * ε' * (sp * sm)))| := by
  have h : ∀ r : ℝ, |2 * r| / 2 = |r| := fun r => by rw [abs_mul, abs_two]; ring
  unfold edge middle
  rw [sectors.overlap_eq, ← h (1 - _)]
  congr 2
  linear_combination 2 * g1 + ca ^ 2 * g2 + ca ^ 2 * g3

/-- Steps of different kinds are apart. -/
theorem step4_apart {o o' : List ℕ} (ho : o.Perm [0, 1, 2]) (ho' : o'.Perm [0, 1, 2])
    (h : 1 - overlap (step4 o) (step4 o') ≤ 0.0001) : kind o = kind o' := by
  obtain ⟨ca, sa, cp, sp, cm, sm, ⟨h1, h2, h3, h4, h5, h6⟩, ⟨g1, g2, g3⟩, ha, hb, hc, hd, he, hf⟩ := numbers4
  rw [step4_kind h1 h2 h3 h4 h5 h6 ho, step4_kind h1 h2 h3 h4 h5 h6 ho'] at h
  by_contra hk
  have b0 := between (by norm_num) hb (by norm_num) hb
  have b1 := between (by norm_num) hd (by norm_num) hd
  have b2 := between (by norm_num) hf (by norm_num) hf
  have b3 := between (by norm_num) hc (by norm_num) he
  have b4 := between (by norm_num) hd (by norm_num) hf
  have far : ∀ {x : ℝ}, 0.009 ≤ x → x ≤ 2 → 1 - |1 - sa ^ 2 * x| > 0.0001 := by
    intro x hx hx'
    have h1 : 0.0151 * 0.009 ≤ sa ^ 2 * x := mul_le_mul (by rw [pow_two]; exact le_trans (by norm_num) b0.1) hx (by norm_num) (by positivity)
    have h2 : sa ^ 2 * x ≤ 0.0152 * 2 := mul_le_mul (by rw [pow_two]; exact b0.2.trans (by norm_num)) hx' (by linarith) (by norm_num)
    rw [abs_of_nonneg (by linarith)]
    linarith
  have f1 : 1 - |1 - sa ^ 2 * (sp ^ 2 + sm ^ 2)| > 0.0001 := far (by rw [pow_two, pow_two]; linarith [b1.1, b2.1]) (by rw [pow_two, pow_two]; linarith [b1.2, b2.2])
  have f2 : ∀ ε ε' : ℝ, ε * ε' = 1 ∨ ε * ε' = -1 → 1 - |1 - sa ^ 2 * (1 - (cp * cm + ε * ε' * (sp * sm)))| > 0.0001 := by
    rintro ε ε' (hε | hε) <;> rw [hε]
    · exact far (by linarith [b3.2, b4.2]) (by linarith [b3.1, b4.1])
    · exact far (by linarith [b3.2, b4.1]) (by linarith [b3.1, b4.2])
  obtain ⟨E, M⟩ := edge_edge g1 g2 g3
  have X := edge_middle g1 g2 g3
  rw [← E] at f1
  have f1' := f1
  rw [E, ← M] at f1'
  have f3 : ∀ ε ε' : ℝ, ε * ε' = 1 ∨ ε * ε' = -1 → 1 - overlap (edge ca sa cp sp cm sm ε) (middle ca sa cp sp cm sm ε') > 0.0001 :=
    fun ε ε' hε => by rw [X]; exact f2 ε ε' hε
  have main : ∀ k k' : Fin 4, k ≠ k' → k < k' → 1 - overlap (kindStep ca sa cp sp cm sm k) (kindStep ca sa cp sp cm sm k') > 0.0001 := by
    intro k k' hne hlt
    fin_cases k <;> fin_cases k' <;> first | exact absurd hlt (by decide) | skip
    · exact f1
    · exact f3 1 (-1) (by norm_num)
    · exact f3 1 1 (by norm_num)
    · exact f3 (-1) (-1) (by norm_num)
    · exact f3 (-1) 1 (by norm_num)
    · change 1 - overlap (middle ca sa cp sp cm sm (-1)) (middle ca sa cp sp cm sm 1) > 0.0001
      rw [overlap_comm]
      exact f1'
  rcases lt_or_gt_of_ne hk with hlt | hlt
  · exact absurd h (not_le.mpr (main _ _ hk hlt))
  · have := main _ _ (Ne.symm hk) hlt
    rw [overlap_comm] at this
    exact absurd h (not_le.mpr this)

/-! ## The random orders -/

/-- The product of the steps in the order of the sequence. -/
noncomputable def steps4 (orders : List (List ℕ)) : Matrix (Fin (2 ^ 2)) (Fin (2 ^ 2)) ℂ := (orders.map step4).reverse.prod

theorem steps4_unitary (orders : List (List ℕ)) : steps4 orders ∈ unitaryGroup (Fin (2 ^ 2)) ℂ :=
  list_prod_mem fun A hA => by
    rw [List.mem_reverse] at hA
    obtain ⟨o, -, rfl⟩ := List.mem_map.mp hA
    exact step4_unitary o

theorem steps4_cons (o : List ℕ) (orders : List (List ℕ)) : steps4 (o :: orders) = steps4 orders * step4 o := by
  simp [steps4]

/-- Given the other orders, at most two orders of the first step bring the product near to a given matrix. -/
theorem first_order {W : Matrix (Fin (2 ^ 2)) (Fin (2 ^ 2)) ℂ} (hW : W ∈ unitaryGroup (Fin (2 ^ 2)) ℂ) (orders : List (List ℕ)) :
    ∃ a b : List ℕ, ∀ o : List ℕ, o.Perm [0, 1, 2] → 1 - overlap W (steps4 (o :: orders)) ≤ 1 / 100000000 → o = a ∨ o = b := by
  by_cases h : ∃ o : List ℕ, o.Perm [0, 1, 2] ∧ 1 - overlap W (steps4 (o :: orders)) ≤ 1 / 100000000
  · obtain ⟨o, ho, hc⟩ := h
    obtain ⟨a, b, hab⟩ := kind_two (kind o)
    refine ⟨a, b, fun o' ho' hc' => hab o' ho' (step4_apart ho' ho ?_)⟩
    have := overlap_triangle (by positivity) (steps4_unitary (o' :: orders)) (steps4_unitary (o :: orders)) hW
      (δ := 1 / 100000000) (by rw [overlap_comm]; exact hc') (by rw [overlap_comm]; exact hc)
    rw [steps4_cons, steps4_cons, overlap_mul_left (steps4_unitary orders)] at this
    exact this.trans (by norm_num)
  · push Not at h
    exact ⟨[], [], fun o ho hc => absurd hc (not_le.mpr (h o ho))⟩

/-- Each order has the probability one sixth. -/
theorem order_sixth (o : List ℕ) : shuffleLaw [0, 1, 2] o ≤ ENNReal.ofReal (1 / 6) := by
  rw [shuffleLaw_apply (by decide)]
  split
  · refine le_of_eq ?_
    rw [one_div, ENNReal.ofReal_inv_of_pos (by norm_num)]
    norm_num [Nat.factorial]
  · exact zero_le

theorem order_perm {o : List ℕ} (h : shuffleLaw [0, 1, 2] o ≠ 0) : o.Perm [0, 1, 2] := by
  by_contra hn
  exact h (by rw [shuffleLaw_apply (by decide), if_neg hn])

/-- The probability that the product of the steps is near to a given matrix. -/
theorem near_third {W : Matrix (Fin (2 ^ 2)) (Fin (2 ^ 2)) ℂ} (hW : W ∈ unitaryGroup (Fin (2 ^ 2)) ℂ) (k : ℕ) :
    (drawsLaw (shuffleLaw [0, 1, 2]) (k + 1)).toOuterMeasure {orders | 1 - overlap W (steps4 orders) ≤ 1 / 100000000} ≤
      ENNReal.ofReal (1 / 3) := by
  classical
  set E := {orders | 1 - overlap W (steps4 orders) ≤ 1 / 100000000} with hE
  rw [drawsLaw, PMF.toOuterMeasure_bind_apply]
  have e1 : ∀ o : List ℕ, shuffleLaw [0, 1, 2] o * ((drawsLaw (shuffleLaw [0, 1, 2]) k).map (o :: ·)).toOuterMeasure E =
      ∑' L, drawsLaw (shuffleLaw [0, 1, 2]) k L * (if o :: L ∈ E then shuffleLaw [0, 1, 2] o else 0) := by
    intro o
    rw [PMF.toOuterMeasure_map_apply, PMF.toOuterMeasure_apply, ← ENNReal.tsum_mul_left]
    refine tsum_congr fun L => ?_
    rw [Set.indicator_apply, Set.mem_preimage]
    split <;> simp [mul_comm]
  rw [tsum_congr e1, ENNReal.tsum_comm]
  have e2 : ∀ L, ∑' o, drawsLaw (shuffleLaw [0, 1, 2]) k L * (if o :: L ∈ E then shuffleLaw [0, 1, 2] o else 0) ≤
      drawsLaw (shuffleLaw [0, 1, 2]) k L * ENNReal.ofReal (1 / 3) := by
    intro L
    rw [ENNReal.tsum_mul_left]
    refine mul_le_mul_right ?_ _
    obtain ⟨a, b, hab⟩ := first_order hW L
    calc ∑' o, (if o :: L ∈ E then shuffleLaw [0, 1, 2] o else 0)
        = ∑ o ∈ ({a, b} : Finset (List ℕ)), (if o :: L ∈ E then shuffleLaw [0, 1, 2] o else 0) := by
          refine tsum_eq_sum fun o ho => ?_
          rw [Finset.mem_insert, Finset.mem_singleton] at ho
          split
          · rename_i hm
            by_contra h0
            exact ho (hab o (order_perm h0) hm)
          · rfl
      _ ≤ ∑ o ∈ ({a, b} : Finset (List ℕ)), ENNReal.ofReal (1 / 6) := by
          refine Finset.sum_le_sum fun o _ => ?_
          split
          · exact order_sixth o
          · exact zero_le
      _ ≤ 2 * ENNReal.ofReal (1 / 6) := by
          rw [Finset.sum_const, nsmul_eq_mul]
          refine mul_le_mul_left ?_ _
          exact_mod_cast Finset.card_le_two
      _ = ENNReal.ofReal (1 / 3) := by
          rw [show (2 : ENNReal) = ENNReal.ofReal 2 by simp, ← ENNReal.ofReal_mul (by norm_num)]
          norm_num
  refine (ENNReal.tsum_le_tsum e2).trans ?_
  rw [ENNReal.tsum_mul_right, PMF.tsum_coe, one_mul]

end Tests

end Stoq
