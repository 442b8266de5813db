import Verif.Proofs.Parameterized
import Mathlib.Tactic.Linarith
import Mathlib.Tactic.NormNum

/-! # Properties C25 - C26: parameters and parameterised unitaries -/

namespace Stoq

open Matrix

/-! ## C25 -/

/-- A random value lies in the range for every draw, strictly below the maximum unless the range is a single
point, and consumes exactly one draw. -/
theorem C25_random_value_in_range (p : Parameter) (h : p.minValue ≤ p.maxValue) (r : Rng) :
    ∃ v, p.randomValue r = (.ok v, { r with upos := r.upos + 1 }) ∧
      p.minValue ≤ v ∧ v ≤ p.maxValue ∧ (p.minValue < p.maxValue → v < p.maxValue) ∧ p.IsValid v := by
  have h0 := (r.unif r.upos).2.1
  have h1 := (r.unif r.upos).2.2
  have hlo : p.minValue ≤ (r.unif r.upos : ℝ) * (p.maxValue - p.minValue) + p.minValue := by
    nlinarith
  have hhi : (r.unif r.upos : ℝ) * (p.maxValue - p.minValue) + p.minValue ≤ p.maxValue := by nlinarith
  exact ⟨(r.unif r.upos : ℝ) * (p.maxValue - p.minValue) + p.minValue, rfl, hlo, hhi,
    fun hlt => by nlinarith, hlo, hhi⟩

/-- Every value of the range below its maximum is returned for some draw: no part of the range is lost. -/
theorem C25_random_value_reaches (p : Parameter) (v : ℝ) (h1 : p.minValue ≤ v) (h2 : v < p.maxValue)
    (r : Rng) : ∃ unif, (p.randomValue { r with unif := unif }).1 = .ok v := by
  have hpos : 0 < p.maxValue - p.minValue := by linarith
  refine ⟨fun _ => ⟨(v - p.minValue) / (p.maxValue - p.minValue), div_nonneg (by linarith) hpos.le, ?_⟩, ?_⟩
  · rw [div_lt_one hpos]; linarith
  · change Except.ok ((v - p.minValue) / (p.maxValue - p.minValue) * (p.maxValue - p.minValue) + p.minValue) = _
    rw [div_mul_cancel₀ _ hpos.ne']
    simp

/-- The constructor accepts exactly the non-empty names with a non-empty range, and raises AssertionError
otherwise. -/
theorem C25_constructor (name : String) (lo hi : ℝ) (isAngle : Bool) :
    Parameter.new name lo hi isAngle =
      open Classical in if name ≠ "" ∧ lo ≤ hi then .ok ⟨name, lo, hi, isAngle⟩ else .error .assertion := by
  unfold Parameter.new
  by_cases h1 : name ≠ "" <;> by_cases h2 : lo ≤ hi <;> simp [assertE, h1, h2]

/-- `is_valid` accepts exactly the closed range. -/
theorem C25_is_valid (p : Parameter) (v : ℝ) : p.IsValid v ↔ p.minValue ≤ v ∧ v ≤ p.maxValue := Iff.rfl

/-! ## C26 -/

/-- Values of the right number and in range are passed to the matrix function; if it returns a unitary matrix the
result is that matrix up to a global phase, with the operation name and every parameter name mapped to its
value. -/
theorem C26_as_unitary_ok {pu : ParamUnitary} {values : List ℝ} {a : Arr}
    {M : Matrix (Fin pu.dimension) (Fin pu.dimension) ℂ} (hd : 0 < pu.dimension)
    (hlen : values.length = pu.parameters.length)
    (hv : ∀ (i : ℕ) p v, pu.parameters[i]? = some p → values[i]? = some v → p.minValue ≤ v ∧ v ≤ p.maxValue)
    (ha : pu.parameterizedMatrix values = .ok a) (hM : a.Is M)
    (hU : M ∈ unitaryGroup (Fin pu.dimension) ℂ) :
    ∃ u, pu.asUnitary 0 values = .ok u ∧ u.Exact pu.dimension ∧
      SamePhase (u.matrix.toMatrix pu.dimension) M ∧ u.operationName = pu.operationName ∧
      u.isInverse = false ∧
      (∀ (i : ℕ) p v, pu.parameters[i]? = some p → values[i]? = some v →
        (∀ (j : ℕ) p', i < j → pu.parameters[j]? = some p' → p'.name ≠ p.name) →
        u.getParameterValue p.name = some (v, p.isAngle)) ∧
      ((pu.parameters.map Parameter.name).Nodup → u.parameterDict =
        (pu.parameters.zip values).map fun pv => (pv.1.name, (pv.2, pv.1.isAngle))) := by
  obtain ⟨hr, hc, rfl⟩ := hM
  have hv' : ∀ pv ∈ pu.parameters.zip values, pv.1.IsValid pv.2 := by
    rintro ⟨p, v⟩ hpv
    obtain ⟨i, h1, h2⟩ := mem_zip_iff.mp hpv
    exact hv i p v h1 h2
  obtain ⟨c, h1, -, -, h3⟩ := Unitary.new_exact hd hr hc hU (some pu.operationName)
    (some (buildDict (pu.parameters.zip values) [])) false []
  have hdet := Unitary.new_det (t := 0) h3
  refine ⟨_, by rw [asUnitary_eq hlen hv', ha, ok_bind, h3], ⟨hd, hr, hc, ?_⟩, ⟨c, h1, Arr.toMatrix_smul c⟩,
    rfl, rfl, ?_, ?_⟩
  · rw [mem_specialUnitaryGroup_iff]
    refine ⟨?_, hdet⟩
    rw [Arr.toMatrix_smul, mem_unitaryGroup_iff, star_eq_conjTranspose, conjTranspose_smul,
      smul_mul_smul_comm]
    have hM' : a.toMatrix pu.dimension * (a.toMatrix pu.dimension)ᴴ = 1 := mem_unitaryGroup_iff.mp hU
    have : c * star c = 1 := by
      rw [Complex.star_def, Complex.mul_conj, Complex.normSq_eq_norm_sq, h1]; simp
    rw [hM', this, one_smul]
  · intro i p v hp hv hlast
    refine buildDict_get (pu.parameters.zip values) [] i p v ?_ ?_
    · rw [List.getElem?_zip_eq_some]; exact ⟨hp, hv⟩
    · intro j p' v' hj h
      rw [List.getElem?_zip_eq_some] at h
      exact hlast j p' hj h.1
  · intro hn
    have := buildDict_nodup (pu.parameters.zip values) [] (by
      have : (pu.parameters.zip values).map (fun pv => pv.1.name) = pu.parameters.map Parameter.name := by
        rw [show (fun pv : Parameter × ℝ => pv.1.name) = Parameter.name ∘ Prod.fst from rfl, ← List.map_map,
          List.map_fst_zip (by omega)]
      rw [this]; exact hn) (by simp)
    simpa using this

/-- Too many values raise IndexError. -/
theorem C26_as_unitary_surplus (τ : Arith) (pu : ParamUnitary) (values : List ℝ)
    (h : pu.parameters.length < values.length) : pu.asUnitary τ values = .error .indexError := by
  unfold ParamUnitary.asUnitary
  rw [raiseUnless_of_not (by omega)]; rfl

/-- A value out of its range raises AssertionError, whatever the matrix function. -/
theorem C26_as_unitary_out_of_range (τ : Arith) (pu : ParamUnitary) (values : List ℝ)
    (hlen : values.length ≤ pu.parameters.length) {i : ℕ} {p : Parameter} {v : ℝ}
    (hp : pu.parameters[i]? = some p) (hv : values[i]? = some v) (h : v < p.minValue ∨ p.maxValue < v) :
    pu.asUnitary τ values = .error .assertion := by
  unfold ParamUnitary.asUnitary
  rw [raiseUnless_of hlen, ok_bind, assertE_of_not, error_bind]
  intro hall
  have := hall (p, v) (mem_zip_iff.mpr ⟨i, hp, hv⟩)
  rcases h with h | h
  · exact absurd this.1 (not_le.mpr h)
  · exact absurd this.2 (not_le.mpr h)

/-- Too few values, all in range, raise IndexError. -/
theorem C26_as_unitary_missing (τ : Arith) (pu : ParamUnitary) (values : List ℝ)
    (hlen : values.length < pu.parameters.length)
    (hv : ∀ (i : ℕ) p v, pu.parameters[i]? = some p → values[i]? = some v → p.minValue ≤ v ∧ v ≤ p.maxValue) :
    pu.asUnitary τ values = .error .indexError := by
  unfold ParamUnitary.asUnitary
  rw [raiseUnless_of hlen.le, ok_bind, assertE_of, ok_bind, raiseUnless_of_not (by omega), error_bind]
  rintro ⟨p, v⟩ hpv
  obtain ⟨i, h1, h2⟩ := mem_zip_iff.mp hpv
  exact hv i p v h1 h2

/-- A successful call had the right number of values, all in range, and the matrix function's result was accepted
by the `Unitary` constructor - for every matrix arithmetic. -/
theorem C26_as_unitary_only {τ : Arith} {pu : ParamUnitary} {values : List ℝ} {u : Unitary}
    (h : pu.asUnitary τ values = .ok u) :
    values.length = pu.parameters.length ∧
    (∀ (i : ℕ) p v, pu.parameters[i]? = some p → values[i]? = some v → p.minValue ≤ v ∧ v ≤ p.maxValue) ∧
    u.getDimension = pu.dimension ∧ u.operationName = pu.operationName ∧
    ∃ a, pu.parameterizedMatrix values = .ok a ∧ (a.rows = pu.dimension ∧ a.cols = pu.dimension) := by
  by_cases h1 : pu.parameters.length < values.length
  · rw [C26_as_unitary_surplus τ pu values h1] at h; simp at h
  by_cases h2 : ∀ (i : ℕ) p v, pu.parameters[i]? = some p → values[i]? = some v →
      p.minValue ≤ v ∧ v ≤ p.maxValue
  swap
  · push Not at h2
    obtain ⟨i, p, v, hp, hv, hh⟩ := h2
    rw [C26_as_unitary_out_of_range τ pu values (by omega) hp hv] at h
    · simp at h
    · by_cases hlo : p.minValue ≤ v
      · exact .inr (hh hlo)
      · exact .inl (not_le.mp hlo)
  by_cases h3 : values.length < pu.parameters.length
  · rw [C26_as_unitary_missing τ pu values h3 h2] at h; simp at h
  have hlen : values.length = pu.parameters.length := by omega
  rw [asUnitary_eq hlen (by
    rintro ⟨p, v⟩ hpv
    obtain ⟨i, h1, h2'⟩ := mem_zip_iff.mp hpv
    exact h2 i p v h1 h2')] at h
  obtain ⟨a, ha, hu⟩ := bind_eq_ok.mp h
  obtain ⟨-, hr, hc, -, -, rfl⟩ := Unitary.new_eq_ok.mp hu
  exact ⟨hlen, h2, hr, rfl, a, ha, hr, hc⟩

/-- Non-vacuity: a phase gate with two parameters meets the hypotheses of `C26_as_unitary_ok`, and the values are
found under their names. -/
noncomputable example : ∃ u, ParamUnitary.asUnitary 0
    ⟨1, fun vs => .ok ⟨1, 1, fun _ _ => Complex.exp ((vs.sum : ℝ) * Complex.I)⟩,
      [⟨"a", 0, 1, true⟩, ⟨"b", -1, 1, false⟩], "P"⟩ [1, -1 / 2] = .ok u ∧
    u.getParameterValue "b" = some (-1 / 2, false) := by
  obtain ⟨u, h1, -, -, -, -, h2, -⟩ := C26_as_unitary_ok (values := [1, -1 / 2])
    (pu := ⟨1, fun vs => .ok ⟨1, 1, fun _ _ => Complex.exp ((vs.sum : ℝ) * Complex.I)⟩,
      [⟨"a", 0, 1, true⟩, ⟨"b", -1, 1, false⟩], "P"⟩) (by norm_num) rfl
    (by
      rintro (_ | _ | i) p v h1 h2 <;> simp at h1 h2
      · subst h1 h2; norm_num
      · subst h1 h2; norm_num) rfl ⟨rfl, rfl, rfl⟩ (by
      rw [mem_unitaryGroup_iff]
      ext i j
      fin_cases i; fin_cases j
      have h2 : (starRingEnd ℂ) 2 = 2 := Complex.conj_ofNat 2
      simp [Matrix.mul_apply, Arr.toMatrix, ← Complex.exp_conj, ← Complex.exp_add, h2])
  exact ⟨u, h1, h2 1 ⟨"b", -1, 1, false⟩ (-1 / 2) rfl rfl (by
    intro j p' hj h
    rcases j with _ | _ | j
    · omega
    · omega
    · simp at h)⟩

end Stoq
