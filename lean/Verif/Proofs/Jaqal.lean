import Verif.Model.PaperPrimitives
import Verif.Proofs.DriftEntry
import Verif.Proofs.DriftDraw
import Verif.Proofs.PaperNoise
import Verif.Proofs.Gates
import Verif.Props.Parameters
import Verif.Spec.Jaqal
import Verif.Spec.Text

/-!
# Lemmas about JAQAL programs and the paper's primitives
-/

namespace Stoq

open Matrix Complex Noise Paper

namespace Paper

theorem asArr_is {d : ℕ} (M : Matrix (Fin d) (Fin d) ℂ) : (asArr M).Is M := by
  refine ⟨rfl, rfl, ?_⟩
  ext i j
  simp [Arr.toMatrix, asArr]

/-! ### Determinants -/

theorem turn_det (φ θ : ℝ) : (turn φ θ).det = 1 := by
  rw [← U_R_eq, Matrix.det_fin_two]
  simp only [U_R, of_apply, cons_val', cons_val_zero, cons_val_one, cons_val_fin_one]
  have h1 : (Real.cos (θ / 2) : ℂ) ^ 2 + (Real.sin (θ / 2) : ℂ) ^ 2 = 1 := by
    exact_mod_cast Real.cos_sq_add_sin_sq (θ / 2)
  have h2 : (Real.cos φ : ℂ) ^ 2 + (Real.sin φ : ℂ) ^ 2 = 1 := by
    exact_mod_cast Real.cos_sq_add_sin_sq φ
  linear_combination h1 + (Real.sin (θ / 2) : ℂ) ^ 2 * h2 -
    (Real.cos φ : ℂ) ^ 2 * (Real.sin (θ / 2) : ℂ) ^ 2 * Complex.I_sq

theorem rot_Z_det (θ : ℝ) : (Gate.rot Gate.Z θ).det = 1 := by
  rw [← U_Rz_eq, Matrix.det_fin_two]
  simp only [U_Rz, of_apply, cons_val', cons_val_zero, cons_val_one, cons_val_fin_one]
  rw [← Complex.exp_add]
  simp

theorem det_cross (a b c d : ℂ) : (!![a, 0, 0, b; 0, a, c, 0; 0, c, a, 0; d, 0, 0, a]).det =
    (a ^ 2 - b * d) * (a ^ 2 - c ^ 2) := by
  simp [Matrix.det_succ_row_zero, Fin.sum_univ_succ, Fin.succAbove]
  ring

/-- The Mølmer-Sørensen gate with rows and columns numbered 0 to 3. -/
noncomputable abbrev ms4 (φ θ : ℝ) : Matrix (Fin 4) (Fin 4) ℂ :=
  (turn2 φ θ).submatrix (finProdFinEquiv (m := 2) (n := 2)).symm (finProdFinEquiv (m := 2) (n := 2)).symm

theorem ms4_det (φ θ : ℝ) : (ms4 φ θ).det = 1 := by
  have h : ms4 φ θ = !![(Real.cos (θ / 2) : ℂ), 0, 0, -I * (Real.cos (φ * 2) - I * Real.sin (φ * 2)) * Real.sin (θ / 2);
      0, (Real.cos (θ / 2) : ℂ), -I * Real.sin (θ / 2), 0; 0, -I * Real.sin (θ / 2), (Real.cos (θ / 2) : ℂ), 0;
      -I * (Real.cos (φ * 2) + I * Real.sin (φ * 2)) * Real.sin (θ / 2), 0, 0, (Real.cos (θ / 2) : ℂ)] := by
    rw [ms4, ← U_MS_eq]
    have e0 : (finProdFinEquiv (m := 2) (n := 2)).symm 0 = (0, 0) := by decide
    have e1 : (finProdFinEquiv (m := 2) (n := 2)).symm 1 = (0, 1) := by decide
    have e2 : (finProdFinEquiv (m := 2) (n := 2)).symm 2 = (1, 0) := by decide
    have e3 : (finProdFinEquiv (m := 2) (n := 2)).symm 3 = (1, 1) := by decide
    ext i j
    rw [submatrix_apply]
    fin_cases i <;> fin_cases j <;>
      simp only [Fin.zero_eta, Fin.mk_one, Fin.reduceFinMk, e0, e1, e2, e3] <;> simp [U_MS]
  rw [h, det_cross]
  have h1 : (Real.cos (θ / 2) : ℂ) ^ 2 + (Real.sin (θ / 2) : ℂ) ^ 2 = 1 := by
    exact_mod_cast Real.cos_sq_add_sin_sq (θ / 2)
  have h2 : (Real.cos (φ * 2) : ℂ) ^ 2 + (Real.sin (φ * 2) : ℂ) ^ 2 = 1 := by
    exact_mod_cast Real.cos_sq_add_sin_sq (φ * 2)
  set a : ℂ := (Real.cos (θ / 2) : ℂ)
  set s : ℂ := (Real.sin (θ / 2) : ℂ)
  set c : ℂ := (Real.cos (φ * 2) : ℂ)
  set t : ℂ := (Real.sin (φ * 2) : ℂ)
  have hI : I * I = -1 := Complex.I_mul_I
  have e1 : -I * (c - I * t) * s * (-I * (c + I * t) * s) = -s ^ 2 := by
    have : -I * (c - I * t) * s * (-I * (c + I * t) * s) = (I * I) * (c ^ 2 - (I * I) * t ^ 2) * s ^ 2 := by ring
    rw [this, hI]
    linear_combination (-s ^ 2) * h2
  have e2 : (-I * s) ^ 2 = -s ^ 2 := by
    have : (-I * s) ^ 2 = (I * I) * s ^ 2 := by ring
    rw [this, hI]; ring
  rw [e1, e2]
  linear_combination (1 + a ^ 2 + s ^ 2) * h1

theorem turn_su (φ θ : ℝ) : turn φ θ ∈ specialUnitaryGroup (Fin 2) ℂ :=
  mem_specialUnitaryGroup_iff.mpr ⟨turn_unitary φ θ, turn_det φ θ⟩

theorem rot_Z_su (θ : ℝ) : Gate.rot Gate.Z θ ∈ specialUnitaryGroup (Fin 2) ℂ :=
  mem_specialUnitaryGroup_iff.mpr ⟨Gate.rot_unitary Gate.Z_sq Gate.Z_ct θ, rot_Z_det θ⟩

theorem ms4_su (φ θ : ℝ) : ms4 φ θ ∈ specialUnitaryGroup (Fin 4) ℂ := by
  refine mem_specialUnitaryGroup_iff.mpr ⟨?_, ms4_det φ θ⟩
  rw [mem_unitaryGroup_iff, star_eq_conjTranspose, ms4, conjTranspose_submatrix, submatrix_mul_equiv]
  have := mem_unitaryGroup_iff.mp (turn2_unitary φ θ)
  rw [star_eq_conjTranspose] at this
  rw [this, submatrix_one_equiv]

/-! ### The primitives -/

/-- The `ParameterizedUnitary` of `qscout_r`. -/
noncomputable def rUnitary (maxAngle : ℝ) : ParamUnitary where
  dimension := 2
  parameterizedMatrix := fun vs => match vs with
      | [φ, θ] => .ok (asArr (U_R φ θ))
      | _ => .error .typeError
  parameters := [⟨"Φ", -Real.pi, Real.pi, true⟩, ⟨"θ", -maxAngle, maxAngle, true⟩]
  operationName := "R"

/-- The `ParameterizedUnitary` of `qscout_rz`. -/
noncomputable def rzUnitary (maxAngle : ℝ) : ParamUnitary where
  dimension := 2
  parameterizedMatrix := fun vs => match vs with
      | [θ] => .ok (asArr (U_Rz θ))
      | _ => .error .typeError
  parameters := [⟨"θ", -maxAngle, maxAngle, true⟩]
  operationName := "Rz"

/-- The `ParameterizedUnitary` of `qscout_ms`. -/
noncomputable def msUnitary (maxAngle : ℝ) : ParamUnitary where
  dimension := 4
  parameterizedMatrix := fun vs => match vs with
      | [φ, θ] => .ok (asArr ((U_MS φ θ).submatrix (finProdFinEquiv (m := 2) (n := 2)).symm
          (finProdFinEquiv (m := 2) (n := 2)).symm))
      | _ => .error .typeError
  parameters := [⟨"Φ", -Real.pi, Real.pi, true⟩, ⟨"θ", -maxAngle, maxAngle, true⟩]
  operationName := "MS"

theorem mem_connectivity1 {n : ℕ} {l : List ℤ} : l ∈ connectivity1 n ↔ ∃ q < n, l = [(q : ℤ)] := by
  simp [connectivity1, eq_comm]

theorem mem_connectivity2 {n : ℕ} {l : List ℤ} :
    l ∈ connectivity2 n ↔ ∃ i < n, ∃ j < n, i ≠ j ∧ l = [(i : ℤ), (j : ℤ)] := by
  simp only [connectivity2, List.mem_flatMap, List.mem_range, List.mem_map, List.mem_filter, decide_eq_true_eq]
  constructor
  · rintro ⟨i, hi, j, ⟨hj, hij⟩, rfl⟩; exact ⟨i, hi, j, hj, hij, rfl⟩
  · rintro ⟨i, hi, j, hj, hij, rfl⟩; exact ⟨i, hi, j, ⟨hj, hij⟩, rfl⟩

theorem phi_ok : phiParameter = .ok ⟨"Φ", -Real.pi, Real.pi, true⟩ := by
  unfold phiParameter Parameter.new
  rw [assertE_of (by decide), ok_bind, assertE_of (by linarith [Real.pi_pos]), ok_bind]; rfl

theorem theta_ok {m : ℝ} (h : 0 ≤ m) : thetaParameter m = .ok ⟨"θ", -m, m, true⟩ := by
  unfold thetaParameter Parameter.new
  rw [assertE_of (by decide), ok_bind, assertE_of (by linarith), ok_bind]; rfl

theorem theta_bad {m : ℝ} (h : m < 0) : thetaParameter m = .error .assertion := by
  unfold thetaParameter Parameter.new
  rw [assertE_of (by decide), ok_bind, assertE_of_not (by push Not; linarith), error_bind]

theorem primitive_ok {pu : ParamUnitary} {lists : List (List ℤ)} {k : ℕ} (hk : 1 ≤ k) (hd : pu.dimension = 2 ^ k)
    (h : ∀ l ∈ lists, l.Nodup ∧ l.length = k ∧ ∀ q ∈ l, 0 ≤ q) :
    Primitive.new (.inr pu) (some lists) = .ok ⟨.inr pu, some lists⟩ := by
  unfold Primitive.new
  simp only
  rw [assertE_of (fun l hl => (h l hl).1), ok_bind,
    assertE_of (fun l hl => by rw [(h l hl).2.1]; exact hd.symm), ok_bind,
    raiseUnless_of (fun l hl hn => by have := (h l hl).2.1; rw [hn] at this; simp at this; omega), ok_bind,
    assertE_of (fun l hl => (h l hl).2.2), ok_bind]
  rfl

theorem connectivity1_ok {n : ℕ} : ∀ l ∈ connectivity1 n, l.Nodup ∧ l.length = 1 ∧ ∀ q ∈ l, 0 ≤ q := by
  intro l hl
  obtain ⟨q, -, rfl⟩ := mem_connectivity1.mp hl
  simp

theorem connectivity2_ok {n : ℕ} : ∀ l ∈ connectivity2 n, l.Nodup ∧ l.length = 2 ∧ ∀ q ∈ l, 0 ≤ q := by
  intro l hl
  obtain ⟨i, -, j, -, hij, rfl⟩ := mem_connectivity2.mp hl
  simp [hij]

theorem qscoutR_eq {n : ℕ} {m : ℝ} (h : 0 ≤ m) : qscoutR n m = .ok ⟨.inr (rUnitary m), some (connectivity1 n)⟩ := by
  unfold qscoutR
  rw [phi_ok, ok_bind, theta_ok h, ok_bind]
  unfold ParamUnitary.new
  rw [assertE_of (by norm_num), ok_bind]
  exact primitive_ok (k := 1) le_rfl rfl connectivity1_ok

theorem qscoutRz_eq {n : ℕ} {m : ℝ} (h : 0 ≤ m) :
    qscoutRz n m = .ok ⟨.inr (rzUnitary m), some (connectivity1 n)⟩ := by
  unfold qscoutRz
  rw [theta_ok h, ok_bind]
  unfold ParamUnitary.new
  rw [assertE_of (by norm_num), ok_bind]
  exact primitive_ok (k := 1) le_rfl rfl connectivity1_ok

theorem qscoutMs_eq {n : ℕ} {m : ℝ} (h : 0 ≤ m) :
    qscoutMs n m = .ok ⟨.inr (msUnitary m), some (connectivity2 n)⟩ := by
  unfold qscoutMs
  rw [phi_ok, ok_bind, theta_ok h, ok_bind]
  unfold ParamUnitary.new
  rw [assertE_of (by norm_num), ok_bind]
  exact primitive_ok (k := 2) (by norm_num) rfl connectivity2_ok

theorem qscout_bad {n : ℕ} {m : ℝ} (h : m < 0) : qscoutR n m = .error .assertion ∧
    qscoutRz n m = .error .assertion ∧ qscoutMs n m = .error .assertion := by
  unfold qscoutR qscoutRz qscoutMs
  rw [phi_ok, ok_bind, ok_bind, theta_bad h]
  exact ⟨rfl, rfl, rfl⟩

/-! ### The gates made from them -/

theorem rUnitary_as {m φ θ : ℝ} (h1 : -Real.pi ≤ φ ∧ φ ≤ Real.pi) (h2 : -m ≤ θ ∧ θ ≤ m) :
    (rUnitary m).asUnitary 0 [φ, θ] = .ok ⟨asArr (turn φ θ), "R", [("Φ", (φ, true)), ("θ", (θ, true))], false, []⟩ := by
  rw [asUnitary_eq rfl (by
    intro pv hpv
    simp only [rUnitary, List.zip_cons_cons, List.zip_nil_right, List.mem_cons, List.not_mem_nil, or_false] at hpv
    rcases hpv with rfl | rfl
    exacts [h1, h2])]
  show (Except.ok (asArr (U_R φ θ)) >>= _) = _
  rw [ok_bind, U_R_eq]
  refine (Unitary.new_su (Nat.succ_pos _) rfl rfl ?_ _ _ _ _).trans rfl
  rw [(asArr_is _).2.2]; exact turn_su φ θ

theorem rzUnitary_as {m θ : ℝ} (h2 : -m ≤ θ ∧ θ ≤ m) :
    (rzUnitary m).asUnitary 0 [θ] = .ok ⟨asArr (Gate.rot Gate.Z θ), "Rz", [("θ", (θ, true))], false, []⟩ := by
  rw [asUnitary_eq rfl (by
    intro pv hpv
    simp only [rzUnitary, List.zip_cons_cons, List.zip_nil_right, List.mem_cons, List.not_mem_nil, or_false] at hpv
    rcases hpv with rfl
    exact h2)]
  show (Except.ok (asArr (U_Rz θ)) >>= _) = _
  rw [ok_bind, U_Rz_eq]
  refine (Unitary.new_su (Nat.succ_pos _) rfl rfl ?_ _ _ _ _).trans rfl
  rw [(asArr_is _).2.2]; exact rot_Z_su θ

theorem msUnitary_as {m φ θ : ℝ} (h1 : -Real.pi ≤ φ ∧ φ ≤ Real.pi) (h2 : -m ≤ θ ∧ θ ≤ m) :
    (msUnitary m).asUnitary 0 [φ, θ] = .ok ⟨asArr (ms4 φ θ), "MS", [("Φ", (φ, true)), ("θ", (θ, true))], false, []⟩ := by
  rw [asUnitary_eq rfl (by
    intro pv hpv
    simp only [msUnitary, List.zip_cons_cons, List.zip_nil_right, List.mem_cons, List.not_mem_nil, or_false] at hpv
    rcases hpv with rfl | rfl
    exacts [h1, h2])]
  show (Except.ok (asArr ((U_MS φ θ).submatrix _ _)) >>= _) = _
  rw [ok_bind, U_MS_eq]
  refine (Unitary.new_su (Nat.succ_pos _) rfl rfl ?_ _ _ _ _).trans rfl
  rw [(asArr_is _).2.2]; exact ms4_su φ θ

/-- One of the paper's primitives for `n` qubits. -/
def OneOf (n : ℕ) (q : Primitive) : Prop :=
  ∃ m, qscoutR n m = .ok q ∨ qscoutRz n m = .ok q ∨ qscoutMs n m = .ok q

theorem OneOf.cases {n : ℕ} {q : Primitive} (h : OneOf n q) : ∃ m, 0 ≤ m ∧
    (q = ⟨.inr (rUnitary m), some (connectivity1 n)⟩ ∨ q = ⟨.inr (rzUnitary m), some (connectivity1 n)⟩ ∨
      q = ⟨.inr (msUnitary m), some (connectivity2 n)⟩) := by
  obtain ⟨m, h⟩ := h
  by_cases hm : 0 ≤ m
  · refine ⟨m, hm, ?_⟩
    rw [qscoutR_eq hm, qscoutRz_eq hm, qscoutMs_eq hm] at h
    simpa [eq_comm] using h
  · obtain ⟨h1, h2, h3⟩ := qscout_bad (n := n) (not_le.mp hm)
    rw [h1, h2, h3] at h
    simp at h

theorem list1 {l : List ℕ} {n : ℕ} (h : l.map Int.ofNat ∈ connectivity1 n) : ∃ q < n, l = [q] := by
  obtain ⟨q, hq, h⟩ := mem_connectivity1.mp h
  match l, h with
  | [a], h => refine ⟨q, hq, ?_⟩; simp at h; rw [h]

theorem list2 {l : List ℕ} {n : ℕ} (h : l.map Int.ofNat ∈ connectivity2 n) :
    ∃ i < n, ∃ j < n, i ≠ j ∧ l = [i, j] := by
  obtain ⟨i, hi, j, hj, hij, h⟩ := mem_connectivity2.mp h
  match l, h with
  | [a, b], h => refine ⟨i, hi, j, hj, hij, ?_⟩; simp at h; rw [h.1, h.2]

theorem two_values {l : List ℝ} (h : l.length = 2) : ∃ a b, l = [a, b] := by
  match l, h with
  | [a, b], _ => exact ⟨a, b, rfl⟩

theorem one_value {l : List ℝ} (h : l.length = 1) : ∃ a, l = [a] := by
  match l, h with
  | [a], _ => exact ⟨a, rfl⟩

theorem forall₂_right {α β : Type} {R : α → β → Prop} {l : List α} {l' : List β} (h : List.Forall₂ R l l') :
    ∀ b ∈ l', ∃ a ∈ l, R a b := by
  induction h with
  | nil => simp
  | cons hab _ ih =>
    intro b hb
    rcases List.mem_cons.mp hb with rfl | hb
    · exact ⟨_, List.mem_cons_self .., hab⟩
    · obtain ⟨a, ha, h⟩ := ih b hb
      exact ⟨a, List.mem_cons_of_mem _ ha, h⟩

/-- The statement printed for a gate. -/
def statement (v : EntryVal) : Jaqal.Statement :=
  ⟨v.unitary.operationName, v.applyTo, v.unitary.parameterDict.map fun p => p.2.1⟩

theorem statement_line (fmt : ℕ → ℝ → String) (v : EntryVal) :
    jaqalLine fmt v.unitary.operationName v.unitary.parameterDict v.applyTo = (statement v).line (fmt 7) := by
  simp [jaqalLine, statement, Jaqal.Statement.line, List.map_map, Function.comp_def]

theorem statement_gate {n N : ℕ} {q : Primitive} {v : EntryVal} (hq : OneOf n q) (hv : FromPrimitive 0 N q v) :
    (statement v).gate = some v.gate ∧ v.applyTo.Nodup ∧ ∀ i ∈ v.applyTo, i < n := by
  obtain ⟨u, ap⟩ := v
  obtain ⟨m, -, rfl | rfl | rfl⟩ := hq.cases
  · obtain ⟨⟨values, hlen, hval, hu⟩, hap⟩ := hv
    obtain ⟨φ, θ, rfl⟩ := two_values hlen
    have h1 := hval _ (List.mem_cons_self ..)
    have h2 := hval _ (List.mem_cons_of_mem _ (List.mem_cons_self ..))
    rw [rUnitary_as h1 h2] at hu
    simp only [Except.ok.injEq] at hu
    subst hu
    obtain ⟨i, hi, hl⟩ := list1 hap
    simp only at hl
    subst hl
    refine ⟨?_, by simp, by simpa using hi⟩
    simp only [statement, Jaqal.Statement.gate, EntryVal.gate, List.map_cons, List.map_nil, if_true, Option.some.injEq]
    congr 1
    exact (asArr_is _).2.2.symm
  · obtain ⟨⟨values, hlen, hval, hu⟩, hap⟩ := hv
    obtain ⟨θ, rfl⟩ := one_value hlen
    have h1 := hval _ (List.mem_cons_self ..)
    rw [rzUnitary_as h1] at hu
    simp only [Except.ok.injEq] at hu
    subst hu
    obtain ⟨i, hi, hl⟩ := list1 hap
    simp only at hl
    subst hl
    refine ⟨?_, by simp, by simpa using hi⟩
    simp only [statement, Jaqal.Statement.gate, EntryVal.gate, List.map_cons, List.map_nil]
    rw [if_neg (by decide), if_neg (by decide), if_pos trivial]
    simp only [Option.some.injEq]
    congr 1
    exact (asArr_is _).2.2.symm
  · obtain ⟨⟨values, hlen, hval, hu⟩, hap⟩ := hv
    obtain ⟨φ, θ, rfl⟩ := two_values hlen
    have h1 := hval _ (List.mem_cons_self ..)
    have h2 := hval _ (List.mem_cons_of_mem _ (List.mem_cons_self ..))
    rw [msUnitary_as h1 h2] at hu
    simp only [Except.ok.injEq] at hu
    subst hu
    obtain ⟨i, hi, j, hj, hij, hl⟩ := list2 hap
    simp only at hl
    subst hl
    refine ⟨?_, by simp [hij], by simpa using ⟨hi, hj⟩⟩
    simp only [statement, Jaqal.Statement.gate, EntryVal.gate, List.map_cons, List.map_nil, if_true, Option.some.injEq]
    congr 1
    exact (asArr_is _).2.2.symm

theorem meaning_circuit {n : ℕ} {es : List EntryVal}
    (h : ∀ v ∈ es, (statement v).gate = some v.gate ∧ v.applyTo.Nodup ∧ ∀ i ∈ v.applyTo, i < n) :
    Jaqal.meaning n (es.map statement) = some (circuit n es) := by
  induction es with
  | nil => rfl
  | cons e es ih =>
    obtain ⟨h1, h2, h3⟩ := h e (by simp)
    rw [List.map_cons, Jaqal.meaning, if_pos ⟨h2, h3⟩, h1, ih fun v hv => h v (by simp [hv])]
    rfl

theorem OneOf.valid {n : ℕ} {q : Primitive} (h : OneOf n q) (hn : 2 ≤ n) : q.Valid n := by
  obtain ⟨m, hm, rfl | rfl | rfl⟩ := h.cases
  · refine ⟨1, le_rfl, by omega, ⟨rfl, ?_, ?_⟩, ?_⟩
    · simp only [rUnitary, List.mem_cons, List.not_mem_nil, or_false, forall_eq_or_imp, forall_eq]
      exact ⟨by linarith [Real.pi_pos], by linarith⟩
    · intro values hlen _
      obtain ⟨φ, θ, rfl⟩ := two_values hlen
      refine ⟨_, rfl, rfl, rfl, ?_⟩
      have := (asArr_is (U_R φ θ)).2.2
      rw [show (2 ^ 1 : ℕ) = 2 from rfl, this, U_R_eq]
      exact turn_unitary φ θ
    · intro l hl
      obtain ⟨i, hi, rfl⟩ := mem_connectivity1.mp hl
      simp; exact hi
  · refine ⟨1, le_rfl, by omega, ⟨rfl, ?_, ?_⟩, ?_⟩
    · simp only [rzUnitary, List.mem_cons, List.not_mem_nil, or_false, forall_eq]
      linarith
    · intro values hlen _
      obtain ⟨θ, rfl⟩ := one_value hlen
      refine ⟨_, rfl, rfl, rfl, ?_⟩
      have := (asArr_is (U_Rz θ)).2.2
      rw [show (2 ^ 1 : ℕ) = 2 from rfl, this, U_Rz_eq]
      exact (mem_specialUnitaryGroup_iff.mp (rot_Z_su θ)).1
    · intro l hl
      obtain ⟨i, hi, rfl⟩ := mem_connectivity1.mp hl
      simp; exact hi
  · refine ⟨2, by omega, hn, ⟨rfl, ?_, ?_⟩, ?_⟩
    · simp only [msUnitary, List.mem_cons, List.not_mem_nil, or_false, forall_eq_or_imp, forall_eq]
      exact ⟨by linarith [Real.pi_pos], by linarith⟩
    · intro values hlen _
      obtain ⟨φ, θ, rfl⟩ := two_values hlen
      refine ⟨_, rfl, rfl, rfl, ?_⟩
      have := (asArr_is ((U_MS φ θ).submatrix (finProdFinEquiv (m := 2) (n := 2)).symm
          (finProdFinEquiv (m := 2) (n := 2)).symm)).2.2
      rw [show (2 ^ 2 : ℕ) = 4 from rfl]
      have h4 := (mem_specialUnitaryGroup_iff.mp (ms4_su φ θ)).1
      rw [ms4, ← U_MS_eq] at h4
      rw [show (asArr ((U_MS φ θ).submatrix (finProdFinEquiv (m := 2) (n := 2)).symm
          (finProdFinEquiv (m := 2) (n := 2)).symm)).toMatrix 4 = _ from this]
      exact h4
    · intro l hl
      obtain ⟨i, hi, j, hj, hij, rfl⟩ := mem_connectivity2.mp hl
      simp [hij]; exact ⟨hi, hj⟩

end Paper

end Stoq
