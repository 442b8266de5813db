import Verif.Model.Tests
import Verif.Props.DriftLibrary
import Verif.Proofs.DriftTensor

/-! # Rules for the unit tests of the library -/

namespace Stoq.Tests

open Matrix UnitaryDefinitions

open scoped Matrix.Norms.L2Operator

/-- The accuracy used for the unit tests, which have at most four qubits. -/
abbrev Fine (τ : Arith) : Prop := τ.Accurate 16 1.25e-12

/-- The object stores the unitary matrix `V` with an error of `k * 1e-10`. -/
structure Rep {d : ℕ} (u : Unitary) (V : Matrix (Fin d) (Fin d) ℂ) (k : ℕ) : Prop where
  pos : 0 < d
  le : d ≤ 16
  near : u.Near V (k * 1e-10)
  mem : V ∈ unitaryGroup (Fin d) ℂ

variable {d k l : ℕ} {τ : Arith} {u v : Unitary} {V W : Matrix (Fin d) (Fin d) ℂ}

theorem Rep.dim (h : Rep u V k) : u.getDimension = d := h.near.dim

theorem Rep.acc (h : Rep u V k) (hτ : Fine τ) : τ.Accurate d 1.25e-12 := hτ.mono h.le

theorem Rep.cost (h : Rep u V k) : 3 * d * (1.25e-12 : ℝ) ≤ 6e-11 := by
  have : (d : ℝ) ≤ 16 := by exact_mod_cast h.le
  linarith

theorem Rep.mono (h : Rep u V k) (hkl : k ≤ l) : Rep u V l :=
  ⟨h.pos, h.le, h.near.mono (by have : (k : ℝ) ≤ l := by exact_mod_cast hkl
                                linarith), h.mem⟩

theorem Rep.phase (h : Rep u V k) (hp : SamePhase V W) (hW : W ∈ unitaryGroup (Fin d) ℂ) : Rep u W k := by
  obtain ⟨c, hc, rfl⟩ := hp
  exact ⟨h.pos, h.le, h.near.of_smul hc, hW⟩

theorem mul_cost (h : k + l + 1 ≤ 40) {x : ℝ} (hx : x ≤ 6e-11) :
    (1 + (k : ℝ) * 1e-10) * (1 + (l : ℝ) * 1e-10) - 1 + x ≤ ((k + l + 1 : ℕ) : ℝ) * 1e-10 ∧
    ((k + l + 1 : ℕ) : ℝ) * 1e-10 ≤ 4e-9 := by
  have h1 : (k : ℝ) + l + 1 ≤ 40 := by exact_mod_cast h
  have hk : (0 : ℝ) ≤ k := Nat.cast_nonneg k
  have hl : (0 : ℝ) ≤ l := Nat.cast_nonneg l
  have h2 : (k : ℝ) * l ≤ 40 * 40 := mul_le_mul (by linarith) (by linarith) hl (by norm_num)
  push_cast
  constructor
  · have : (1 + (k : ℝ) * 1e-10) * (1 + (l : ℝ) * 1e-10) - 1 = (k + l) * 1e-10 + (k * l) * 1e-20 := by ring
    rw [this]
    linarith
  · linarith

theorem Rep.mul (hτ : Fine τ) (hu : Rep u V k) (hv : Rep v W l) (h : k + l + 1 ≤ 40) :
    ∃ r, u.leftMultiply τ v = .ok r ∧ Rep r (W * V) (k + l + 1) := by
  obtain ⟨h1, h2⟩ := mul_cost h hu.cost
  obtain ⟨r, e, hr⟩ := (C56_multiply hu.pos (hu.acc hτ) hu.near hv.near hu.mem hv.mem
    (by unfold driftLimit; linarith)).1
  exact ⟨r, e, hu.pos, hu.le, hr.mono h1, mul_mem hv.mem hu.mem⟩

theorem Rep.rmul (hτ : Fine τ) (hu : Rep u V k) (hv : Rep v W l) (h : k + l + 1 ≤ 40) :
    ∃ r, u.rightMultiply τ v = .ok r ∧ Rep r (V * W) (k + l + 1) := by
  obtain ⟨h1, h2⟩ := mul_cost h hu.cost
  obtain ⟨r, e, hr⟩ := (C56_multiply hu.pos (hu.acc hτ) hu.near hv.near hu.mem hv.mem
    (by unfold driftLimit; linarith)).2
  exact ⟨r, e, hu.pos, hu.le, hr.mono h1, mul_mem hu.mem hv.mem⟩

theorem Rep.inverse (hτ : Fine τ) (hu : Rep u V k) (h : k + 1 ≤ 40) :
    ∃ r, u.inverse τ = .ok r ∧ Rep r Vᴴ (k + 1) ∧ r.operationName = u.operationName ∧
      r.parameterDict = u.parameterDict ∧ r.isInverse = (!u.isInverse) ∧ r.applyTo = u.applyTo := by
  have h1 : (k : ℝ) + 1 ≤ 40 := by exact_mod_cast h
  have := hu.cost
  obtain ⟨r, e, hr, h3⟩ := Unitary.inverse_near hu.pos (hu.acc hτ) hu.near hu.mem (by unfold driftLimit; linarith)
  exact ⟨r, e, ⟨hu.pos, hu.le, hr.mono (by push_cast; linarith), ct_mem_unitary hu.mem⟩, h3⟩

theorem Rep.tensor {d₁ d₂ : ℕ} {V : Matrix (Fin d₁) (Fin d₁) ℂ} {W : Matrix (Fin d₂) (Fin d₂) ℂ} (hτ : Fine τ)
    (hu : Rep u V k) (hv : Rep v W l) (h : k + l + 1 ≤ 40) (hd : d₁ * d₂ = d) (hd16 : d ≤ 16) :
    ∃ r, u.tensor τ v = .ok r ∧ Rep r (tensorMat hd V W) (k + l + 1) := by
  have hd' : (d : ℝ) ≤ 16 := by exact_mod_cast hd16
  obtain ⟨h1, h2⟩ := mul_cost (x := 3 * d * (1.25e-12 : ℝ)) h (by linarith)
  have hpos : 0 < d := hd ▸ Nat.mul_pos hu.pos hv.pos
  obtain ⟨r, e, hr⟩ := Unitary.tensor_near hd hpos (hτ.mono hd16) hu.near hv.near hu.mem hv.mem
    (by unfold driftLimit; linarith)
  exact ⟨r, e, hpos, hd16, hr.mono h1, tensorMat_mem hd hu.mem hv.mem⟩

theorem Rep.distance (hτ : Fine τ) (hu : Rep u V k) (hv : Rep v W l) (hk : k ≤ 40) (hl : l ≤ 40) :
    ∃ x, u.distanceFromArr τ v.matrix = .ok x ∧ |x - (1 - overlap V W)| ≤ 9e-9 := by
  have hk' : (k : ℝ) ≤ 40 := by exact_mod_cast hk
  have hl' : (l : ℝ) ≤ 40 := by exact_mod_cast hl
  have hk0 : (0 : ℝ) ≤ k := Nat.cast_nonneg k
  have hl0 : (0 : ℝ) ≤ l := Nat.cast_nonneg l
  have hc := hu.cost
  have hc0 : 0 ≤ 3 * d * (1.25e-12 : ℝ) := by positivity
  obtain ⟨x, e, hx⟩ := C56_distance hu.pos (hu.acc hτ) hu.near hv.near hu.mem hv.mem (by unfold driftLimit; linarith)
    (by linarith)
  refine ⟨x, e, hx.trans ?_⟩
  have h1 : (1 + ((k : ℝ) * 1e-10 + 3 * d * 1.25e-12)) * (1 + l * 1e-10) ≤ (1 + 4.1e-9) * (1 + 4e-9) :=
    mul_le_mul (by linarith) (by linarith) (by positivity) (by norm_num)
  linarith

theorem close_none {x : ℝ} (h : u.distanceFromArr τ v.matrix = .ok x) (b : Bool) (hx : b = true ↔ |x| ≤ 1e-8) :
    u.closeTo τ v none = .ok b := by
  unfold Unitary.closeTo Unitary.closeToArr
  rw [show v.getMatrix = v.matrix from rfl, h, ok_bind]
  have : isclose (x : ℂ) 0 ↔ |x| ≤ 1e-8 := by
    simp only [isclose, sub_zero, norm_zero, mul_zero, add_zero, Complex.norm_real, Real.norm_eq_abs]
  show Except.ok _ = _
  congr 1
  rw [Bool.eq_iff_iff, hx, ← this]
  exact @decide_eq_true_iff _ (Classical.propDecidable _)

theorem close_some {x t : ℝ} (h : u.distanceFromArr τ v.matrix = .ok x) (b : Bool) (hx : b = true ↔ x ≤ 1 - t) :
    u.closeTo τ v (some t) = .ok b := by
  unfold Unitary.closeTo Unitary.closeToArr
  rw [show v.getMatrix = v.matrix from rfl, h, ok_bind]
  show Except.ok _ = _
  congr 1
  rw [Bool.eq_iff_iff, hx, decide_eq_true_iff]

theorem Rep.close (hτ : Fine τ) (hu : Rep u V k) (hv : Rep v W l) (hk : k ≤ 40) (hl : l ≤ 40) (hp : SamePhase V W) :
    u.closeTo τ v none = .ok true := by
  obtain ⟨x, e, hx⟩ := hu.distance hτ hv hk hl
  refine close_none e _ (iff_of_true rfl ?_)
  rw [(overlap_eq_one_iff hu.pos hu.mem hv.mem).mpr hp] at hx
  simp only [sub_self, sub_zero] at hx
  linarith

theorem Rep.far (hτ : Fine τ) (hu : Rep u V k) (hv : Rep v W l) (hk : k ≤ 40) (hl : l ≤ 40) (hp : overlap V W ≤ 0.999) :
    u.closeTo τ v none = .ok false := by
  obtain ⟨x, e, hx⟩ := hu.distance hτ hv hk hl
  refine close_none e _ (iff_of_false (by simp) ?_)
  have := abs_le.mp hx
  rw [not_le, lt_abs]
  left
  linarith

/-- A bare identity matrix as an argument of `close_to`. -/
theorem rep_identity (hd : 0 < d) (hd16 : d ≤ 16) (a : String) :
    Rep (d := d) ⟨Arr.identity d, a, [], false, []⟩ 1 0 :=
  ⟨hd, hd16, ⟨rfl, rfl, CloseTo.near ⟨1, by simp, by simp [Arr.toMatrix_identity]⟩ (by simp [Arr.toMatrix_identity])⟩, one_mem _⟩

theorem Rep.closeArr (hτ : Fine τ) (hu : Rep u V k) (hk : k ≤ 40) (hp : SamePhase V 1) :
    u.closeToArr τ (Arr.identity d) none = .ok true :=
  hu.close hτ (rep_identity hu.pos hu.le "") hk (by norm_num) hp

theorem Rep.farArr (hτ : Fine τ) (hu : Rep u V k) (hk : k ≤ 40) (hp : overlap V 1 ≤ 0.999) :
    u.closeToArr τ (Arr.identity d) none = .ok false :=
  hu.far hτ (rep_identity hu.pos hu.le "") hk (by norm_num) hp

/-! ## Assertions -/

theorem assertIs_ok (b : Bool) : assertIs b (.ok b) = .ok () := by
  unfold assertIs
  rw [ok_bind, assertE_of rfl]

theorem assertE_true : assertE True = .ok () := assertE_of trivial

theorem raises_assertion {α : Type} : raises (.error .assertion : Except PyErr α) = .ok () := rfl

/-! ## Gates -/

/-- The call gives an object that stores `V` with the error `k * 1e-10`, a name and parameters. -/
def Gives {d : ℕ} (r : Except PyErr Unitary) (V : Matrix (Fin d) (Fin d) ℂ) (k : ℕ) (name : String) (pd : ParamDict) : Prop :=
  ∃ u, r = .ok u ∧ Rep u V k ∧ u.operationName = name ∧ u.parameterDict = pd ∧ u.isInverse = false

theorem NearGate.gives {r : Except PyErr Unitary} {ε : ℝ} {name : String} {pd : ParamDict} (h : NearGate r V ε name pd)
    (hd : 0 < d) (hd16 : d ≤ 16) (hV : V ∈ unitaryGroup (Fin d) ℂ) (hε : ε ≤ k * 1e-10) : Gives r V k name pd := by
  obtain ⟨u, h1, h2, h3⟩ := h
  exact ⟨u, h1, ⟨hd, hd16, h2.mono hε, hV⟩, h3⟩

theorem new_gives (hτ : Fine τ) (hd : 0 < d) (hd16 : d ≤ 16) {a : Arr} (ha : a.Is V) (hV : V ∈ unitaryGroup (Fin d) ℂ)
    (name : Option String) (pd : Option ParamDict) :
    ∃ u, Unitary.new τ d (some a) name pd = .ok u ∧ Rep u V 1 ∧ u.operationName = name.getD "U" ∧
      u.parameterDict = pd.getD [] ∧ u.isInverse = false ∧ u.applyTo = [] := by
  have hd' : (d : ℝ) ≤ 16 := by exact_mod_cast hd16
  obtain ⟨u, h1, h2, h3⟩ := C56_construct hd (hτ.mono hd16) (by unfold driftLimit; linarith) ha hV name pd false []
  exact ⟨u, h1, ⟨hd, hd16, h2.mono (by push_cast; linarith), hV⟩, h3⟩

theorem gate_gives (hτ : Fine τ) (hd : 0 < d) (hd16 : d ≤ 16) {a : Arr} (ha : a.Is V) (hV : V ∈ unitaryGroup (Fin d) ℂ)
    (f : String) {args : List ℝ} (hargs : ∀ x ∈ args, |x| ≤ 100) (name : Option String) (pd : Option ParamDict) :
    ∃ u, Unitary.new τ d (some (τ.gate f args a)) name pd = .ok u ∧ Rep u V 1 ∧ u.operationName = name.getD "U" ∧
      u.parameterDict = pd.getD [] ∧ u.isInverse = false ∧ u.applyTo = [] := by
  have hd' : (d : ℝ) ≤ 16 := by exact_mod_cast hd16
  obtain ⟨hr, hc, rfl⟩ := ha
  obtain ⟨u, h1, h2, h3⟩ := Unitary.new_gate_near hd (hτ.mono hd16) hr hc hV f hargs (by unfold driftLimit; linarith)
    name pd false []
  exact ⟨u, h1, ⟨hd, hd16, h2.mono (by push_cast; linarith), hV⟩, h3⟩

/-- The constructor on the matrix of an object. -/
theorem renew_gives (hτ : Fine τ) (hu : Rep u V k) (hk : k + 1 ≤ 40) (name : Option String) (pd : Option ParamDict) :
    ∃ v, Unitary.new τ d (some u.getMatrix) name pd = .ok v ∧ Rep v V (k + 1) ∧ v.operationName = name.getD "U" ∧
      v.parameterDict = pd.getD [] ∧ v.isInverse = false ∧ v.applyTo = [] := by
  have h1 : (k : ℝ) + 1 ≤ 40 := by exact_mod_cast hk
  have := hu.cost
  obtain ⟨v, e, hr, h3⟩ := Unitary.new_near (a := u.matrix) hu.pos (hu.acc hτ) hu.near.rows hu.near.cols hu.mem
    hu.near.mat (by unfold driftLimit; linarith) name pd false []
  exact ⟨v, e, ⟨hu.pos, hu.le, hr.mono (by push_cast; linarith), hu.mem⟩, h3⟩

theorem identity_gives (hτ : Fine τ) (hd : 0 < d) (hd16 : d ≤ 16) :
    ∃ u, Unitary.identity τ d = .ok u ∧ Rep (d := d) u 1 0 := by
  obtain ⟨u, h1, h2⟩ := Unitary.identity_near hd (hτ.mono hd16) (by norm_num) (some "I")
  exact ⟨u, h1, hd, hd16, by simpa using h2, one_mem _⟩

theorem default_gives (hτ : Fine τ) (hd : 0 < d) (hd16 : d ≤ 16) :
    ∃ u, Unitary.new τ d = .ok u ∧ Rep (d := d) u 1 0 := by
  obtain ⟨u, h1, h2⟩ := Unitary.identity_near hd (hτ.mono hd16) (by norm_num) none
  refine ⟨u, ?_, hd, hd16, by simpa using h2, one_mem _⟩
  rw [← h1]
  rfl

theorem X_mem : Gate.X ∈ unitaryGroup (Fin 2) ℂ := xArr_is.2

theorem Y_mem : Gate.Y ∈ unitaryGroup (Fin 2) ℂ := by
  rw [mem_unitaryGroup_iff]
  ext i j
  fin_cases i <;> fin_cases j <;> simp [Gate.Y, Matrix.mul_apply, Fin.sum_univ_two, star_eq_conjTranspose]

theorem Z_mem : Gate.Z ∈ unitaryGroup (Fin 2) ℂ := by
  rw [mem_unitaryGroup_iff]
  ext i j
  fin_cases i <;> fin_cases j <;> simp [Gate.Z, Matrix.mul_apply, Fin.sum_univ_two, star_eq_conjTranspose]

theorem T_mem : Gate.T ∈ unitaryGroup (Fin 2) ℂ := by
  have h : Complex.exp (Real.pi / 4 * Complex.I) * (starRingEnd ℂ) (Complex.exp (Real.pi / 4 * Complex.I)) = 1 := by
    rw [Complex.mul_conj, Complex.normSq_eq_norm_sq,
      show (Real.pi / 4 * Complex.I : ℂ) = ((Real.pi / 4 : ℝ) : ℂ) * Complex.I by push_cast; ring,
      Complex.norm_exp_ofReal_mul_I]
    norm_num
  rw [mem_unitaryGroup_iff]
  ext i j
  fin_cases i <;> fin_cases j <;> simp [Gate.T, Matrix.mul_apply, Fin.sum_univ_two, star_eq_conjTranspose, h]

theorem paulis_give (hτ : Fine τ) : Gives (sigmax τ) Gate.X 1 "X" [] ∧ Gives (sigmay τ) Gate.Y 1 "Y" [] ∧
    Gives (sigmaz τ) Gate.Z 1 "Z" [] ∧ Gives (t τ) Gate.T 1 "T" [] := by
  obtain ⟨h1, h2, h3, h4⟩ := C62_renamed (hτ.mono (by norm_num : 2 ≤ 16)) (by unfold driftLimit; norm_num)
  exact ⟨NearGate.gives h1 (by norm_num) (by norm_num) X_mem (by norm_num),
    NearGate.gives h2 (by norm_num) (by norm_num) Y_mem (by norm_num),
    NearGate.gives h3 (by norm_num) (by norm_num) Z_mem (by norm_num),
    NearGate.gives h4 (by norm_num) (by norm_num) T_mem (by norm_num)⟩

end Stoq.Tests
