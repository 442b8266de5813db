import Verif.Proofs.Jaqal
import Verif.Props.Continuous

/-! # The gates of the paper's circuits are continuous and can be without effect -/

namespace Stoq

namespace Paper

open Matrix Complex Noise

theorem axis_continuous {k : ℕ} {f : (Fin k → ℝ) → ℝ} (hf : Continuous f) (i j : Fin 2) :
    Continuous fun x => axis (f x) i j := by
  unfold axis
  simp only [Matrix.add_apply, Matrix.smul_apply, smul_eq_mul]
  refine Continuous.add (Continuous.mul ?_ continuous_const) (Continuous.mul ?_ continuous_const)
  · exact Complex.continuous_ofReal.comp (Real.continuous_cos.comp hf)
  · exact Complex.continuous_ofReal.comp (Real.continuous_sin.comp hf)

theorem rUnitary_continuous (m : ℝ) : (rUnitary m).Continuous := by
  refine ParamUnitary.continuous_of (d := 2) (k := 2) rfl rfl (F := fun vs => turn (vs.getD 0 0) (vs.getD 1 0)) ?_ ?_
  · unfold turn
    refine continuous_rot (fun i j => axis_continuous ?_ i j) ?_ <;>
      simp only [List.ofFn_succ, List.ofFn_zero, List.getD_cons_succ, List.getD_cons_zero] <;> exact continuous_apply _
  · intro vs hvs a ha
    obtain ⟨φ, θ, rfl⟩ := two_values hvs.1
    cases ha
    rw [(asArr_is _).2.2, U_R_eq]; rfl

theorem rzUnitary_continuous (m : ℝ) : (rzUnitary m).Continuous := by
  refine ParamUnitary.continuous_of (d := 2) (k := 1) rfl rfl (F := fun vs => Gate.rot Gate.Z (vs.getD 0 0)) ?_ ?_
  · refine continuous_rot (fun i j => continuous_const) ?_
    simp only [List.ofFn_succ, List.getD_cons_zero]
    exact continuous_apply _
  · intro vs hvs a ha
    obtain ⟨θ, rfl⟩ := one_value hvs.1
    cases ha
    rw [(asArr_is _).2.2, U_Rz_eq]; rfl

theorem msUnitary_continuous (m : ℝ) : (msUnitary m).Continuous := by
  refine ParamUnitary.continuous_of (d := 4) (k := 2) rfl rfl (F := fun vs => ms4 (vs.getD 0 0) (vs.getD 1 0)) ?_ ?_
  · intro i j
    simp only [ms4, submatrix_apply, turn2]
    refine continuous_rot (fun i j => ?_) ?_ _ _
    · simp only [kroneckerMap_apply]
      refine (axis_continuous ?_ _ _).mul (axis_continuous ?_ _ _) <;>
        simp only [List.ofFn_succ, List.ofFn_zero, List.getD_cons_succ, List.getD_cons_zero] <;> exact continuous_apply _
    · simp only [List.ofFn_succ, List.ofFn_zero, List.getD_cons_succ, List.getD_cons_zero]
      exact continuous_apply _
  · intro vs hvs a ha
    obtain ⟨φ, θ, rfl⟩ := two_values hvs.1
    cases ha
    rw [(asArr_is _).2.2, U_MS_eq]; rfl

theorem connectivity1_ne {n : ℕ} (hn : 1 ≤ n) : (some (connectivity1 n) : Option (List (List ℤ))) ≠ some [] := by
  intro h
  have : [((0 : ℕ) : ℤ)] ∈ connectivity1 n := mem_connectivity1.mpr ⟨0, by omega, rfl⟩
  rw [Option.some.inj h] at this
  cases this

theorem connectivity2_ne {n : ℕ} (hn : 2 ≤ n) : (some (connectivity2 n) : Option (List (List ℤ))) ≠ some [] := by
  intro h
  have : [((0 : ℕ) : ℤ), ((1 : ℕ) : ℤ)] ∈ connectivity2 n := mem_connectivity2.mpr ⟨0, by omega, 1, by omega, by omega, rfl⟩
  rw [Option.some.inj h] at this
  cases this

theorem connectivity1_length (n : ℕ) : (connectivity1 n).length = n := by simp [connectivity1]

theorem connectivity2_length (n : ℕ) : (connectivity2 n).length ≤ n * n := by
  unfold connectivity2
  rw [List.length_flatMap]
  refine (List.sum_le_card_nsmul _ n fun x hx => ?_).trans (by simp)
  obtain ⟨i, -, rfl⟩ := List.mem_map.mp hx
  rw [List.length_map]
  exact (List.length_filter_le _ _).trans (by simp)

/-- The gates with axis angle 0 and rotation angle 0. -/
theorem rUnitary_idle {n : ℕ} (hn : 1 ≤ n) {m : ℝ} (hm : 0 < m) :
    (⟨.inr (rUnitary m), some (connectivity1 n)⟩ : Primitive).Idle n := by
  have hpi := Real.pi_pos
  refine ⟨⟨_, [0]⟩, ⟨_, selectable_single (connectivity1_ne hn), ⟨[0, 0], rfl, ?_,
    rUnitary_as (by constructor <;> linarith) (by constructor <;> linarith)⟩, ?_, by simp, rfl, by simp⟩, ?_⟩
  · intro qv hqv
    simp only [rUnitary, List.zip_cons_cons, List.zip_nil_right, List.mem_cons, List.not_mem_nil, or_false] at hqv
    rcases hqv with rfl | rfl
    · exact ⟨by simp [hpi.le], .inl (by simpa using hpi)⟩
    · exact ⟨by simp [hm.le], .inl (by simpa using hm)⟩
  · exact mem_connectivity1.mpr ⟨0, by omega, rfl⟩
  · change embed n [0] ((asArr (turn 0 0)).toMatrix 2) = 1
    rw [(asArr_is _).2.2]
    unfold turn
    rw [Gate.rot_zero]
    exact embed_one (a := [0]) (by simp) (by simp; omega)

theorem rzUnitary_idle {n : ℕ} (hn : 1 ≤ n) {m : ℝ} (hm : 0 < m) :
    (⟨.inr (rzUnitary m), some (connectivity1 n)⟩ : Primitive).Idle n := by
  refine ⟨⟨_, [0]⟩, ⟨_, selectable_single (connectivity1_ne hn), ⟨[0], rfl, ?_,
    rzUnitary_as (by constructor <;> linarith)⟩, ?_, by simp, rfl, by simp⟩, ?_⟩
  · intro qv hqv
    simp only [rzUnitary, List.zip_cons_cons, List.zip_nil_right, List.mem_cons, List.not_mem_nil, or_false] at hqv
    rcases hqv with rfl
    exact ⟨by simp [hm.le], .inl (by simpa using hm)⟩
  · exact mem_connectivity1.mpr ⟨0, by omega, rfl⟩
  · change embed n [0] ((asArr (Gate.rot Gate.Z 0)).toMatrix 2) = 1
    rw [(asArr_is _).2.2, Gate.rot_zero]
    exact embed_one (a := [0]) (by simp) (by simp; omega)

theorem msUnitary_idle {n : ℕ} (hn : 2 ≤ n) {m : ℝ} (hm : 0 < m) :
    (⟨.inr (msUnitary m), some (connectivity2 n)⟩ : Primitive).Idle n := by
  have hpi := Real.pi_pos
  refine ⟨⟨_, [0, 1]⟩, ⟨_, selectable_single (connectivity2_ne hn), ⟨[0, 0], rfl, ?_,
    msUnitary_as (by constructor <;> linarith) (by constructor <;> linarith)⟩, ?_, by simp, rfl, by simp⟩, ?_⟩
  · intro qv hqv
    simp only [msUnitary, List.zip_cons_cons, List.zip_nil_right, List.mem_cons, List.not_mem_nil, or_false] at hqv
    rcases hqv with rfl | rfl
    · exact ⟨by simp [hpi.le], .inl (by simpa using hpi)⟩
    · exact ⟨by simp [hm.le], .inl (by simpa using hm)⟩
  · exact mem_connectivity2.mpr ⟨0, by omega, 1, by omega, by omega, rfl⟩
  · change embed n [0, 1] ((asArr (ms4 0 0)).toMatrix 4) = 1
    rw [(asArr_is _).2.2]
    have : ms4 0 0 = 1 := by
      unfold ms4 turn2
      rw [Gate.rot_zero, submatrix_one_equiv]
    rw [this]
    exact embed_one (a := [0, 1]) (by simp) (by simp; omega)

/-- Layers of gates without effect. -/
theorem idle_layers {n : ℕ} {counts : List (Primitive × ℤ)} (h : ∀ pc ∈ counts, 0 < pc.2 → pc.1.Idle n) (k : ℕ) :
    ∃ ls : List (List EntryVal), ls.length = k ∧ (∀ l ∈ ls, CanDrawLayer n counts l) ∧ circuit n ls.flatten = 1 := by
  have hrest : ∃ groups, Grouped (fun p v => CanDraw n [p] none v) counts groups ∧ ∀ v ∈ groups.flatten, v.op n = 1 := by
    induction counts with
    | nil => exact ⟨[], .nil, by simp⟩
    | cons pc counts ih =>
      obtain ⟨groups, h1, h2⟩ := ih fun x hx => h x (List.mem_cons_of_mem _ hx)
      by_cases h0 : 0 < pc.2
      · obtain ⟨v, hv, hv1⟩ := h pc List.mem_cons_self h0
        refine ⟨List.replicate pc.2.toNat v :: groups, .cons ⟨List.length_replicate, fun x hx => ?_⟩ h1, fun x hx => ?_⟩
        · rw [List.eq_of_mem_replicate hx]; exact hv
        · rw [List.flatten_cons] at hx
          rcases List.mem_append.mp hx with hx | hx
          · rw [List.eq_of_mem_replicate hx]; exact hv1
          · exact h2 x hx
      · exact ⟨[] :: groups, .cons ⟨by rw [Int.toNat_of_nonpos (by omega)]; rfl, by simp⟩ h1, by simpa using h2⟩
  obtain ⟨groups, h1, h2⟩ := hrest
  refine ⟨List.replicate k groups.flatten, List.length_replicate, fun l hl => ?_, circuit_identities fun v hv => ?_⟩
  · rw [List.eq_of_mem_replicate hl]
    exact ⟨groups, h1, List.Perm.refl _⟩
  · obtain ⟨l, hl, hv⟩ := List.mem_flatten.mp hv
    rw [List.eq_of_mem_replicate hl] at hv
    exact h2 v hv

end Paper

end Stoq
