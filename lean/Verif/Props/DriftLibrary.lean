import Verif.Proofs.DriftCompile
import Verif.Proofs.DriftInverse
import Verif.Props.Drift
import Verif.Props.Gms
import Verif.Props.TimeEvolution

/-!
# Property C62: the library's gates with the clean-up of small matrix entries and rounding

For every arithmetic whose clean-up threshold and rounding errors are small enough, and angles up to 100 in modulus.
-/

namespace Stoq

open Matrix Complex UnitaryDefinitions
open scoped Matrix.Norms.L2Operator

variable {n d : ℕ} {τ : Arith} {δ ε : ℝ}

/-- A library gate of size `d` is close to the ideal matrix. -/
def NearGate (r : Except PyErr Unitary) (V : Matrix (Fin d) (Fin d) ℂ) (ε : ℝ) (name : String) (pd : ParamDict) : Prop :=
  ∃ u, r = .ok u ∧ u.Near V ε ∧ u.operationName = name ∧ u.parameterDict = pd ∧ u.isInverse = false

theorem new_nearGate (hd : 0 < d) (hτ : τ.Accurate d δ) {a : Arr} {V : Matrix (Fin d) (Fin d) ℂ} (ha : a.Is V)
    (hV : V ∈ unitaryGroup (Fin d) ℂ) (hlim : 3 * d * δ ≤ driftLimit) (name : String) (pd : Option ParamDict) :
    NearGate (Unitary.new τ d (some a) (some name) pd) V (3 * d * δ) name (pd.getD []) := by
  obtain ⟨hr, hc, rfl⟩ := ha
  have hX : CloseTo (a.toMatrix d) (a.toMatrix d) 0 := ⟨1, by simp, by simp⟩
  obtain ⟨u, h1, h2, h3, h4, h5, -⟩ := Unitary.new_near hd hτ hr hc hV (hX.near (Unitary.norm_det_of_unitary hV))
    (by rw [zero_add]; exact hlim) (some name) pd false []
  rw [zero_add] at h2
  exact ⟨u, h1, h2, h3, h4, h5⟩

theorem gate_nearGate (hd : 0 < d) (hτ : τ.Accurate d δ) {a : Arr} {V : Matrix (Fin d) (Fin d) ℂ} (ha : a.Is V)
    (hV : V ∈ unitaryGroup (Fin d) ℂ) (hlim : 3 * d * δ ≤ driftLimit) (f : String) {args : List ℝ}
    (hargs : ∀ x ∈ args, |x| ≤ 100) (name : String) (pd : Option ParamDict) :
    NearGate (Unitary.new τ d (some (τ.gate f args a)) (some name) pd) V (3 * d * δ) name (pd.getD []) := by
  obtain ⟨hr, hc, rfl⟩ := ha
  obtain ⟨u, h1, h2, h3, h4, h5, -⟩ := Unitary.new_gate_near hd hτ hr hc hV f hargs hlim (some name) pd false []
  exact ⟨u, h1, h2, h3, h4, h5⟩

theorem renew_nearGate (hd : 0 < d) (hτ : τ.Accurate d δ) {u : Unitary} {V : Matrix (Fin d) (Fin d) ℂ} (hu : u.Near V ε)
    (hV : V ∈ unitaryGroup (Fin d) ℂ) (hlim : ε + 3 * d * δ ≤ driftLimit) (name : String) (pd : Option ParamDict) :
    NearGate (Unitary.new τ d (some u.getMatrix) (some name) pd) V (ε + 3 * d * δ) name (pd.getD []) := by
  obtain ⟨h1, h2, h3⟩ := hu
  obtain ⟨u, h1, h2, h3, h4, h5, -⟩ := Unitary.new_near (a := u.matrix) hd hτ h1 h2 hV h3 hlim (some name) pd false []
  exact ⟨u, h1, h2, h3, h4, h5⟩

theorem CloseTo.of_smul {X V : Matrix (Fin d) (Fin d) ℂ} {c : ℂ} (h : CloseTo X (c • V) ε) (hc : ‖c‖ = 1) :
    CloseTo X V ε := by
  obtain ⟨c', hc', h⟩ := h
  exact ⟨c' * c, by rw [norm_mul, hc, hc', one_mul], by rwa [← smul_smul]⟩

theorem Unitary.Near.of_smul {u : Unitary} {V : Matrix (Fin d) (Fin d) ℂ} {c : ℂ} (h : u.Near (c • V) ε) (hc : ‖c‖ = 1) :
    u.Near V ε := by
  obtain ⟨h1, h2, h3, r, X, h4, h5, h6⟩ := h
  exact ⟨h1, h2, h3.of_smul hc, r, X, h4, h5, h6.of_smul hc⟩

/-! ## C62 -/

/-- The rotations of one qubit. -/
theorem C62_rotations (hτ : τ.Accurate 2 δ) (hlim : 6 * δ ≤ driftLimit) {θ φ : ℝ} (hθ : |θ| ≤ 100) (hφ : |φ| ≤ 100) :
    NearGate (rx τ θ) (Gate.rot Gate.X θ) (6 * δ) "Rx" [("θ", (θ, true))] ∧
    NearGate (ry τ θ) (Gate.rot Gate.Y θ) (6 * δ) "Ry" [("θ", (θ, true))] ∧
    NearGate (rz τ θ) (Gate.rot Gate.Z θ) (6 * δ) "Rz" [("θ", (θ, true))] ∧
    NearGate (rphi τ θ φ) (Gate.rot ((Real.cos φ : ℂ) • Gate.X + (Real.sin φ : ℂ) • Gate.Y) θ) (6 * δ) "R"
      [("θ", (θ, true)), ("Φ", (φ, true))] := by
  have e : 3 * ((2 : ℕ) : ℝ) * δ = 6 * δ := by push_cast; ring
  have h1 : ∀ x ∈ [θ], |x| ≤ 100 := by simpa using hθ
  have h2 : ∀ x ∈ [θ, φ], |x| ≤ 100 := by simpa using ⟨hθ, hφ⟩
  rw [← e] at hlim ⊢
  exact ⟨gate_nearGate (by norm_num) hτ (rxMatrix_is θ) (mem_specialUnitaryGroup_iff.mp (Gate.rot_X_su θ)).1 hlim _ h1 _ _,
    gate_nearGate (by norm_num) hτ (ryMatrix_is θ) (mem_specialUnitaryGroup_iff.mp (Gate.rot_Y_su θ)).1 hlim _ h1 _ _,
    gate_nearGate (by norm_num) hτ (rzMatrix_is θ) (mem_specialUnitaryGroup_iff.mp (Gate.rot_Z_su θ)).1 hlim _ h1 _ _,
    gate_nearGate (by norm_num) hτ (rphiMatrix_is θ φ) (mem_specialUnitaryGroup_iff.mp (Gate.rot_axis_su θ φ)).1 hlim _ h2 _ _⟩

/-- `xx`. -/
theorem C62_xx (hτ : τ.Accurate 4 δ) (hlim : 12 * δ ≤ driftLimit) {θ : ℝ} (hθ : |θ| ≤ 100) :
    NearGate (xx τ θ) (Gate.rot Gate.XX (2 * θ)) (12 * δ) "XX" [("θ", (θ, true))] := by
  have e : 3 * ((4 : ℕ) : ℝ) * δ = 12 * δ := by push_cast; ring
  rw [← e] at hlim ⊢
  exact gate_nearGate (by norm_num) hτ (xxMatrix_is θ) (mem_specialUnitaryGroup_iff.mp (Gate.rot_XX_su _)).1 hlim _
    (by simpa using hθ) _ _

/-- `cnot`, `ccnot` and `qecc_phase_flip`. -/
theorem C62_fixed (hτ : τ.Accurate 8 δ) (hlim : 24 * δ ≤ driftLimit) :
    NearGate (cnot τ) Gate.CNOT (12 * δ) "CNOT" [] ∧ NearGate (ccnot τ) Gate.CCNOT (24 * δ) "CCNOT" [] ∧
    NearGate (qeccPhaseFlip τ) Gate.phaseFlip (24 * δ) "QECC" [] := by
  have e : 3 * ((4 : ℕ) : ℝ) * δ = 12 * δ := by push_cast; ring
  have e' : 3 * ((8 : ℕ) : ℝ) * δ = 24 * δ := by push_cast; ring
  have h12 : 12 * δ ≤ driftLimit := by linarith [hτ.t_nonneg]
  rw [← e] at h12 ⊢
  rw [← e'] at hlim ⊢
  exact ⟨new_nearGate (by norm_num) (hτ.mono (by norm_num)) cnotMatrix_is Gate.CNOT_unitary h12 _ _,
    new_nearGate (by norm_num) hτ ccnotMatrix_is Gate.CCNOT_unitary hlim _ _,
    gate_nearGate (d := 8) (by norm_num) hτ (a := qeccMatrix) ⟨rfl, rfl, qeccMatrix_eq⟩ Gate.phaseFlip_unitary hlim _
      (by simp) _ _⟩

/-- The Pauli gates and `t`, which are rotations constructed once more. -/
theorem C62_renamed (hτ : τ.Accurate 2 δ) (hlim : 12 * δ ≤ driftLimit) :
    NearGate (sigmax τ) Gate.X (12 * δ) "X" [] ∧ NearGate (sigmay τ) Gate.Y (12 * δ) "Y" [] ∧
    NearGate (sigmaz τ) Gate.Z (12 * δ) "Z" [] ∧ NearGate (t τ) Gate.T (12 * δ) "T" [] := by
  have e : 6 * δ + 3 * ((2 : ℕ) : ℝ) * δ = 12 * δ := by push_cast; ring
  have key : ∀ {r : Except PyErr Unitary} {V W : Matrix (Fin 2) (Fin 2) ℂ} {name pd} (_ : NearGate r V (6 * δ) name pd)
      (_ : V ∈ unitaryGroup (Fin 2) ℂ) (name' : String) {c : ℂ} (_ : ‖c‖ = 1) (_ : V = c • W),
      NearGate (r >>= fun u => Unitary.new τ u.getDimension (some u.getMatrix) (some name')) W (12 * δ) name' [] := by
    rintro r V W name pd ⟨u, h1, h2, -⟩ hV name' c hc rfl
    rw [h1, ok_bind, h2.dim, ← e]
    obtain ⟨v, v1, v2, v3⟩ := renew_nearGate (by norm_num) hτ h2 hV (by rw [e]; exact hlim) name' none
    exact ⟨v, v1, v2.of_smul hc, v3⟩
  have h6 : 6 * δ ≤ driftLimit := by linarith [hτ.t_nonneg]
  have hpi : |Real.pi| ≤ 100 := by rw [abs_of_pos Real.pi_pos]; linarith [Real.pi_le_four]
  have hpi4 : |Real.pi / 4| ≤ 100 := by rw [abs_of_pos (by positivity)]; linarith [Real.pi_le_four]
  have hrot : ∀ P : Matrix (Fin 2) (Fin 2) ℂ, Gate.rot P Real.pi = (-I) • P := by
    intro P; simp [Gate.rot]
  exact ⟨key (C62_rotations hτ h6 hpi hpi).1 (mem_specialUnitaryGroup_iff.mp (Gate.rot_X_su _)).1 "X" (by simp) (hrot _),
    key (C62_rotations hτ h6 hpi hpi).2.1 (mem_specialUnitaryGroup_iff.mp (Gate.rot_Y_su _)).1 "Y" (by simp) (hrot _),
    key (C62_rotations hτ h6 hpi hpi).2.2.1 (mem_specialUnitaryGroup_iff.mp (Gate.rot_Z_su _)).1 "Z" (by simp) (hrot _),
    key (C62_rotations hτ h6 hpi4 hpi).2.2.1 (mem_specialUnitaryGroup_iff.mp (Gate.rot_Z_su _)).1 "T"
      (norm_exp_ofReal_mul_I _) rotZ_T⟩

/-- `h`, a product of two rotations constructed once more. -/
theorem C62_hadamard (hτ : τ.Accurate 2 δ) (hlim : 25 * δ ≤ driftLimit) : NearGate (h τ) Gate.H (25 * δ) "H" [] := by
  have h0 := hτ.t_nonneg
  have h6 : 6 * δ ≤ driftLimit := by linarith
  have hpi : |Real.pi| ≤ 100 := by rw [abs_of_pos Real.pi_pos]; linarith [Real.pi_le_four]
  have hpi2 : |Real.pi / 2| ≤ 100 := by rw [abs_of_pos (by positivity)]; linarith [Real.pi_le_four]
  obtain ⟨u, u1, u2, -⟩ := (C62_rotations hτ h6 hpi2 hpi).2.1
  obtain ⟨v, v1, v2, -⟩ := (C62_rotations hτ h6 hpi hpi).2.2.1
  have hY := (mem_specialUnitaryGroup_iff.mp (Gate.rot_Y_su (Real.pi / 2))).1
  have hZ := (mem_specialUnitaryGroup_iff.mp (Gate.rot_Z_su Real.pi)).1
  have ht : δ ≤ 1 / 36 := by unfold driftLimit at hlim; norm_num at hlim; linarith
  have hle : Unitary.mulErr 2 δ (6 * δ) (6 * δ) + 3 * ((2 : ℕ) : ℝ) * δ ≤ 25 * δ := by
    unfold Unitary.mulErr; push_cast; nlinarith
  obtain ⟨p, p1, p2⟩ := Unitary.leftMultiply_near (by norm_num : 0 < 2) hτ v2 u2 hZ hY (by
    refine le_trans ?_ (hle.trans hlim); push_cast; linarith)
  obtain ⟨r, r1, r2, r3⟩ := renew_nearGate (by norm_num : 0 < 2) hτ p2 (mul_mem hY hZ) (hle.trans hlim) "H" none
  refine ⟨r, ?_, ?_, r3⟩
  · unfold h
    rw [u1, ok_bind, v1, ok_bind, p1, ok_bind, p2.dim]
    exact r1
  · rw [hadamard_product] at r2
    exact (r2.mono hle).of_smul (by simp)

/-- `time_evolution`, for every Hermitian matrix and every time. -/
theorem C62_evolution (hd : 0 < d) (hτ : τ.Accurate d δ) (hlim : 3 * d * δ ≤ driftLimit) {h : Arr}
    {H : Matrix (Fin d) (Fin d) ℂ} (hh : h.Is H) (hH : H.IsHermitian) {t : ℝ} (ht : |t| * ‖H‖ ≤ 100) (suffix : String) :
    NearGate (timeEvolution τ h t suffix) (evolution H t) (3 * d * δ) ("H" ++ suffix) [("t", (t, false))] := by
  unfold timeEvolution
  rw [assertE_of (Arr.IsHermitianClose.of_is hh hH), ok_bind, hh.1]
  have hA := expm_is hh t
  obtain ⟨-, -, rfl⟩ := hh
  obtain ⟨u, h1, h2, h3, h4, h5, -⟩ := Unitary.new_evolved_near hd hτ hA.1 hA.2.1 (hA.2.2 ▸ evolution_unitary hH t) ht hlim
    (some ("H" ++ suffix)) (some [("t", (t, false))]) false []
  rw [hA.2.2] at h2
  exact ⟨u, h1, h2, h3, h4, h5⟩

theorem two_le_pow_two (hn : 2 ≤ n) : 4 ≤ 2 ^ n :=
  (show 4 = 2 ^ 2 from rfl) ▸ Nat.pow_le_pow_right (by norm_num) hn

theorem gmsLocal_near (hb : Budget n τ δ (12 * δ) 1) {θ : ℝ} (hθ : |θ| ≤ 100) {p : ℕ × ℕ} (h : p.1 < p.2) (hn : p.2 < n) :
    ∃ f, gmsLocal τ n θ p = .ok f ∧ f.Near (embed n [p.1, p.2] (Gate.rot Gate.XX (2 * θ))) (12 * δ + 6 * 2 ^ n * δ) ∧
      embed n [p.1, p.2] (Gate.rot Gate.XX (2 * θ)) ∈ unitaryGroup (Fin (2 ^ n)) ℂ := by
  have h0 := two_pow_tau_nonneg n hb.t0
  have hs : 12 * δ + 6 * 2 ^ n * δ ≤ driftLimit := le_trans (by unfold stepErr; linarith) hb.step
  obtain ⟨u, h1, h2, -⟩ := C62_xx (hb.tau.mono (two_le_pow_two (by omega : 2 ≤ n))) (by linarith) hθ
  have hnd : [p.1, p.2].Nodup := by simpa using h.ne
  have hdim : u.getDimension = 2 ^ [p.1, p.2].length := h2.dim
  have hnew : EntryVal.new u [(p.1 : ℤ), (p.2 : ℤ)] = .ok ⟨u, [p.1, p.2]⟩ := entry_new_ok (by simp) hnd hdim
  have hg : (⟨[p.1, p.2], Gate.rot Gate.XX (2 * θ)⟩ : Gate).Ok n :=
    ⟨hnd, by simp, by intro q hq; simp at hq; omega, (mem_specialUnitaryGroup_iff.mp (Gate.rot_XX_su _)).1⟩
  obtain ⟨f, f1, f2⟩ := EntryVal.fullUnitary_near (e := ⟨u, [p.1, p.2]⟩) hb.tau hb.tau1 ⟨rfl, h2⟩ hg hs
  refine ⟨f, ?_, f2, hg.op_mem⟩
  unfold gmsLocal
  rw [h1, ok_bind, hnew, ok_bind, f1]

theorem gmsFold_near {θ : ℝ} (hθ : |θ| ≤ 100) (l : List (ℕ × ℕ)) (hl : ∀ p ∈ l, p.1 < p.2 ∧ p.2 < n) (acc : Unitary) {k : ℕ}
    {V : Matrix (Fin (2 ^ n)) (Fin (2 ^ n)) ℂ} (hV : V ∈ unitaryGroup (Fin (2 ^ n)) ℂ)
    (hb : Budget n τ δ (12 * δ) (k + l.length)) (hacc : acc.Near V (driftErr n δ (12 * δ) k)) :
    ∃ us r, l.mapM (gmsLocal τ n θ) = .ok us ∧ us.foldlM (fun acc u => acc.leftMultiply τ u) acc = .ok r ∧
      r.Near (l.foldl (fun acc p => embed n [p.1, p.2] (Gate.rot Gate.XX (2 * θ)) * acc) V)
        (driftErr n δ (12 * δ) (k + l.length)) ∧
      l.foldl (fun acc p => embed n [p.1, p.2] (Gate.rot Gate.XX (2 * θ)) * acc) V ∈ unitaryGroup (Fin (2 ^ n)) ℂ := by
  induction l generalizing acc k V with
  | nil => exact ⟨[], acc, rfl, rfl, hacc, hV⟩
  | cons p l ih =>
    obtain ⟨hp, hpn⟩ := hl p List.mem_cons_self
    rw [List.length_cons, show k + (l.length + 1) = k + 1 + l.length by omega] at hb
    obtain ⟨f, f1, f2, f3⟩ := gmsLocal_near (hb.mono (by omega)) hθ hp hpn
    have h0 := two_pow_tau_nonneg n hb.t0
    obtain ⟨x, x1, x2⟩ := leftMul_drift (hb.mono (by omega)) hV hacc f3 f2 (by linarith)
    obtain ⟨us, r, r1, r2, r3, r4⟩ := ih (fun q hq => hl q (List.mem_cons_of_mem _ hq)) x (mul_mem f3 hV) hb x2
    refine ⟨f :: us, r, ?_, ?_, ?_, r4⟩
    · rw [List.mapM_cons, f1, ok_bind, r1, ok_bind]; rfl
    · rw [List.foldlM_cons, x1, ok_bind, r2]
    · rw [List.length_cons, show k + (l.length + 1) = k + 1 + l.length by omega]; exact r3

/-- `gms`, for every number of qubits for which the error of the product stays small. -/
theorem C62_gms {θ : ℝ} (hθ : |θ| ≤ 100) (hb : Budget n τ δ (12 * δ) (n.choose 2 + 1)) :
    NearGate (gms τ n θ) (Gate.GMS n θ) (driftErr n δ (12 * δ) (n.choose 2 + 1)) ("GMS" ++ toString n)
      [("θ", (θ, true))] := by
  have hall := Gate.gmsPairs_all n
  obtain ⟨i, i1, i2⟩ := Unitary.identity_near (d := 2 ^ n) (Nat.two_pow_pos n) hb.tau hb.tau1 (some "I")
  obtain ⟨us, r, r1, r2, r3, r4⟩ := gmsFold_near hθ (gmsPairs n) (pairs_lt hall) i (k := 0) (one_mem _)
    (by rw [gmsPairs_length]; exact hb.mono (by omega)) (i2.mono (driftErr_nonneg hb.t0 hb.eps))
  rw [gmsPairs_length, Nat.zero_add] at r3
  have hG : (gmsPairs n).foldl (fun acc p => embed n [p.1, p.2] (Gate.rot Gate.XX (2 * θ)) * acc) 1 = Gate.GMS n θ := by
    rw [← fold_allPairs hall]
    refine List.foldl_ext _ _ _ fun acc p hp => ?_
    have hlt := pairs_lt hall p hp
    rw [← Gate.embed_rot_XX hlt.1.ne (by omega) hlt.2]
  rw [hG] at r3 r4
  have hle := driftErr_add hb
  rw [← cast_two_pow] at hle
  obtain ⟨v, e1, e2, e3⟩ := renew_nearGate (Nat.two_pow_pos n) hb.tau r3 r4 (hle.trans hb.lim) ("GMS" ++ toString n)
    (some [("θ", (θ, true))])
  refine ⟨v, ?_, e2.mono hle, e3⟩
  unfold gms
  rw [r1, ok_bind]
  unfold Unitary.identity
  rw [i1, ok_bind, r2, ok_bind]
  exact e1

/-! ## Parameterized gates -/

/-- The values are in the ranges of the parameters. -/
def InRange (ps : List Parameter) (values : List ℝ) : Prop :=
  values.length = ps.length ∧ ∀ pv ∈ ps.zip values, pv.1.minValue ≤ pv.2 ∧ pv.2 ≤ pv.1.maxValue

/-- What makes a parameterized unitary of the library usable: for values in range, its matrix is close to the ideal
matrix, and so is `as_unitary`. -/
structure NearFamily (pu : ParamUnitary) (k : ℕ) (V : List ℝ → Matrix (Fin (2 ^ k)) (Fin (2 ^ k)) ℂ) (τ : Arith) (δ ε : ℝ) : Prop where
  dim : pu.dimension = 2 ^ k
  ranges : ∀ q ∈ pu.parameters, q.minValue ≤ q.maxValue
  matrix : ∀ values, InRange pu.parameters values → ∃ a, pu.parameterizedMatrix values = .ok a ∧ a.rows = 2 ^ k ∧
    a.cols = 2 ^ k ∧ V values ∈ unitaryGroup (Fin (2 ^ k)) ℂ ∧
      ∃ ε', NearMat (a.toMatrix (2 ^ k)) (V values) ε' ∧ ε' + 3 * 2 ^ k * δ ≤ ε
  asUnitary : ∀ values, InRange pu.parameters values →
    NearGate (pu.asUnitary τ values) (V values) ε pu.operationName (buildDict (pu.parameters.zip values) [])

theorem nearFamily_of {pu : ParamUnitary} {k : ℕ} {V : List ℝ → Matrix (Fin (2 ^ k)) (Fin (2 ^ k)) ℂ} {ε' : ℝ}
    (hτ : τ.Accurate (2 ^ k) δ) (hle : ε' + 3 * 2 ^ k * δ ≤ ε) (hlim : ε ≤ driftLimit) (hdim : pu.dimension = 2 ^ k)
    (hr : ∀ q ∈ pu.parameters, q.minValue ≤ q.maxValue)
    (h : ∀ values, InRange pu.parameters values → ∃ a, pu.parameterizedMatrix values = .ok a ∧
      a.rows = 2 ^ k ∧ a.cols = 2 ^ k ∧ V values ∈ unitaryGroup (Fin (2 ^ k)) ℂ ∧
        NearMat (a.toMatrix (2 ^ k)) (V values) ε') :
    NearFamily pu k V τ δ ε := by
  refine ⟨hdim, hr, fun values hv => ?_, fun values hv => ?_⟩
  · obtain ⟨a, h1, h2, h3, h4, h5⟩ := h values hv
    exact ⟨a, h1, h2, h3, h4, ε', h5, hle⟩
  · obtain ⟨a, h1, h2, h3, h4, h5⟩ := h values hv
    rw [← cast_two_pow] at hle
    obtain ⟨u, e1, e2, e3, e4, e5, -⟩ := Unitary.new_near (Nat.two_pow_pos k) hτ h2 h3 h4 h5 (hle.trans hlim)
      (some pu.operationName) (some (buildDict (pu.parameters.zip values) [])) false []
    refine ⟨u, ?_, e2.mono hle, e3, e4, e5⟩
    rw [asUnitary_eq hv.1 hv.2, h1, ok_bind, hdim]
    exact e1

theorem NearGate.matrix {r : Except PyErr Unitary} {V : Matrix (Fin d) (Fin d) ℂ} {name : String} {pd : ParamDict}
    (h : NearGate r V ε name pd) (hV : V ∈ unitaryGroup (Fin d) ℂ) : ∃ a : Arr,
      (do return (← r).getMatrix : Except PyErr Arr) = .ok a ∧ a.rows = d ∧ a.cols = d ∧
      V ∈ unitaryGroup (Fin d) ℂ ∧ NearMat (a.toMatrix d) V ε := by
  obtain ⟨u, rfl, ⟨h1, h2, h3⟩, -⟩ := h
  exact ⟨u.matrix, rfl, h1, h2, hV, h3⟩

/-- Angles in the range of the library are not large. -/
theorem angle_le {x : ℝ} (h : 0 ≤ x ∧ x ≤ 2 * Real.pi) : |x| ≤ 100 := by
  rw [abs_of_nonneg h.1]; linarith [Real.pi_le_four]

/-- `rotation_xy`, `rotation_xyz` and `xx`. -/
theorem C62_parameterized (hτ : τ.Accurate 4 δ) (hlim : 24 * δ ≤ driftLimit) :
    (∃ pu, ParamDefinitions.rotationXY τ = .ok pu ∧ NearFamily pu 1 (fun vs => match vs with
      | [θ, φ] => Gate.rot ((Real.cos φ : ℂ) • Gate.X + (Real.sin φ : ℂ) • Gate.Y) θ
      | _ => 1) τ δ (12 * δ)) ∧
    (∃ pu, ParamDefinitions.rotationXYZ τ = .ok pu ∧ NearFamily pu 1 (fun vs => match vs with
      | [α, β, γ] => Gate.rot Gate.Z α * Gate.rot Gate.Y β * Gate.rot Gate.Z γ
      | _ => 1) τ δ (9 * δ)) ∧
    (∃ pu, ParamDefinitions.xx τ = .ok pu ∧ NearFamily pu 2 (fun vs => match vs with
      | [θ] => Gate.rot Gate.XX (2 * θ)
      | _ => 1) τ δ (24 * δ)) := by
  have h0 := hτ.t_nonneg
  have hτ2 : τ.Accurate 2 δ := hτ.mono (by norm_num)
  refine ⟨⟨_, ParamDefinitions.rotationXY_eq τ, ?_⟩, ⟨_, ParamDefinitions.rotationXYZ_eq τ, ?_⟩,
    ⟨_, ParamDefinitions.xx_eq τ, ?_⟩⟩
  · refine nearFamily_of (ε' := 6 * δ) hτ2 (by linarith) (by linarith) rfl
      (by simp [Real.pi_pos.le]) ?_
    rintro values ⟨hv, hr⟩
    match values, hv, hr with
    | [θ, φ], _, hr =>
      simp only [List.zip_cons_cons, List.zip_nil_right, List.mem_cons, List.not_mem_nil, or_false, forall_eq_or_imp,
        forall_eq] at hr
      exact (C62_rotations hτ2 (by linarith) (angle_le hr.1) (angle_le hr.2)).2.2.2.matrix
        (mem_specialUnitaryGroup_iff.mp (Gate.rot_axis_su θ φ)).1
  · refine nearFamily_of (ε' := 3 * δ) hτ2 (by linarith) (by linarith) rfl
      (by simp [Real.pi_pos.le]) ?_
    rintro values ⟨hv, hr⟩
    match values, hv, hr with
    | [α, β, γ], _, hr =>
      simp only [List.zip_cons_cons, List.zip_nil_right, List.mem_cons, List.not_mem_nil, or_false, forall_eq_or_imp,
        forall_eq] at hr
      have hU := mem_specialUnitaryGroup_iff.mp (mul_mem (mul_mem (Gate.rot_Z_su α) (Gate.rot_Y_su β)) (Gate.rot_Z_su γ))
      obtain ⟨e1, e2, e3⟩ := rotationXYZMatrix_is α β γ
      have h := Unitary.gate_nearMat (by norm_num) hτ2 e1 e2 (e3 ▸ hU.1) "rotation_xyz" (args := [α, β, γ])
        (by simpa using ⟨angle_le hr.1, angle_le hr.2.1, angle_le hr.2.2⟩) (by push_cast; linarith)
      rw [e3] at h
      exact ⟨_, rfl, e1, e2, hU.1, h.mono (by push_cast; linarith)⟩
  · refine nearFamily_of (ε' := 12 * δ) hτ (by linarith) (by linarith) rfl
      (by simp [Real.pi_pos.le]) ?_
    rintro values ⟨hv, hr⟩
    match values, hv, hr with
    | [θ], _, hr =>
      simp only [List.zip_cons_cons, List.zip_nil_right, List.mem_cons, List.not_mem_nil, or_false, forall_eq] at hr
      exact (C62_xx hτ (by linarith) (angle_le hr)).matrix (mem_specialUnitaryGroup_iff.mp (Gate.rot_XX_su _)).1

/-- `gms`. -/
theorem C62_parameterized_gms (hb : Budget n τ δ (12 * δ) (n.choose 2 + 2)) :
    ∃ pu, ParamDefinitions.gms τ n = .ok pu ∧ NearFamily pu n (fun vs => match vs with
      | [θ] => Gate.GMS n θ
      | _ => 1) τ δ (driftErr n δ (12 * δ) (n.choose 2 + 2)) := by
  refine ⟨_, ParamDefinitions.gms_eq τ n, nearFamily_of hb.tau (driftErr_add hb) hb.lim rfl (by simp [Real.pi_pos.le]) ?_⟩
  rintro values ⟨hv, hr⟩
  match values, hv, hr with
  | [θ], _, hr =>
    simp only [List.zip_cons_cons, List.zip_nil_right, List.mem_cons, List.not_mem_nil, or_false, forall_eq] at hr
    obtain ⟨u, -, h1, h2, -⟩ := C28_gms n θ
    exact (C62_gms (angle_le hr) (hb.mono (by omega))).matrix (h1.2.2 ▸ (mem_specialUnitaryGroup_iff.mp h2.2.2.2).1)

/-- `time_evolution`. -/
theorem C62_parameterized_evolution {k : ℕ} (hτ : τ.Accurate (2 ^ k) δ) (hlim : 6 * 2 ^ k * δ ≤ driftLimit) {h : Arr}
    {H : Matrix (Fin (2 ^ k)) (Fin (2 ^ k)) ℂ} (hh : h.Is H) (hH : H.IsHermitian) {tMin tMax : ℝ} (hle : tMin ≤ tMax)
    (hmin : |tMin| * ‖H‖ ≤ 100) (hmax : |tMax| * ‖H‖ ≤ 100) (suffix : String) : ∃ pu, ParamDefinitions.timeEvolution τ h tMin tMax suffix = .ok pu ∧
      NearFamily pu k (fun vs => match vs with
        | [t] => evolution H t
        | _ => 1) τ δ (6 * 2 ^ k * δ) ∧ ∀ t, pu.parameters.length = 1 ∧ (InRange pu.parameters [t] ↔ tMin ≤ t ∧ t ≤ tMax) := by
  have h0 := two_pow_tau_nonneg k hτ.t_nonneg
  refine ⟨ParamUnitary.mk (2 ^ k) (fun vs => match vs with
    | [t] => do return (← timeEvolution τ h t suffix).getMatrix
    | _ => .error .typeError) [⟨"t", tMin, tMax, false⟩] ("H" ++ suffix), ?_, ?_, fun t => ⟨rfl, by simp [InRange]⟩⟩
  · unfold ParamDefinitions.timeEvolution Parameter.new ParamUnitary.new
    rw [assertE_of (Arr.IsHermitianClose.of_is hh hH), ok_bind, assertE_of hle, ok_bind,
      assertE_of (by decide), ok_bind, ok_bind, pure_except, ok_bind, hh.1, assertE_of (Nat.two_pow_pos k), ok_bind]
    rfl
  · refine nearFamily_of (ε' := 3 * 2 ^ k * δ) hτ (by linarith) hlim rfl (by simpa using hle) ?_
    rintro values ⟨hv, hr⟩
    match values, hv, hr with
    | [t], _, hr =>
      simp only [List.zip_cons_cons, List.zip_nil_right, List.mem_cons, List.not_mem_nil, or_false, forall_eq] at hr
      have ht : |t| * ‖H‖ ≤ 100 := by
        have : |t| ≤ max |tMin| |tMax| := abs_le_max_abs_abs hr.1 hr.2
        refine (mul_le_mul_of_nonneg_right this (norm_nonneg _)).trans ?_
        rcases max_choice |tMin| |tMax| with h | h <;> rw [h] <;> assumption
      have := C62_evolution (τ := τ) (Nat.two_pow_pos k) hτ (by rw [cast_two_pow]; linarith) hh hH ht suffix
      rw [cast_two_pow] at this
      exact this.matrix (evolution_unitary hH t)

/-- Such a parameterized unitary makes a primitive that compilation can use. -/
theorem C62_primitive {pu : ParamUnitary} {k : ℕ} {V : List ℝ → Matrix (Fin (2 ^ k)) (Fin (2 ^ k)) ℂ} {ε' : ℝ}
    (h : NearFamily pu k V τ δ ε) (hle : ε ≤ ε') (hk1 : 1 ≤ k) (hkn : k ≤ n) {lists : Option (List (List ℤ))}
    (hl : ∀ ls, lists = some ls → ∀ l ∈ ls, l.Nodup ∧ l.length = k ∧ ∀ q ∈ l, 0 ≤ q ∧ q < (n : ℤ)) :
    (Primitive.mk (.inr pu) lists).Nearly n δ ε' := by
  refine ⟨k, hk1, hkn, ⟨h.dim, h.ranges, fun values h1 h2 => ?_⟩, ?_⟩
  · obtain ⟨a, e1, e2, e3, e4, ε₁, e5, e6⟩ := h.matrix values ⟨h1, h2⟩
    exact ⟨a, e1, e2, e3, _, e4, ε₁, e5, e6.trans hle⟩
  · rcases lists with _ | ls
    · trivial
    · exact hl ls rfl

/-! ## The code's threshold -/

theorem gmsBudget (k : ℕ) (hk : k ≤ 12) : Budget 4 (.exact codeTau) codeTau (12 * codeTau) k ∧
    driftErr 4 codeTau (12 * codeTau) k ≤ k * 4.08e-10 := by
  have h : (k : ℝ) ≤ 12 := by exact_mod_cast hk
  obtain ⟨h1, h2⟩ := C56_budget (n := 4) (t := codeTau) (ε := 12 * codeTau) (k := k) code_accurate
    (by unfold codeTau; norm_num) (by unfold codeTau; norm_num) (by unfold stepErr codeTau; norm_num; linarith)
  refine ⟨h1, h2.trans (le_of_eq ?_)⟩
  unfold stepErr codeTau
  norm_num
  ring

/-- `gms` on four qubits. -/
example : NearGate (gms (.exact codeTau) 4 3) (Gate.GMS 4 3) 3e-9 "GMS4" [("θ", (3, true))] := by
  obtain ⟨h1, h2⟩ := gmsBudget 7 (by norm_num)
  obtain ⟨u, u1, u2, u3⟩ := C62_gms (n := 4) (θ := 3) (by norm_num) h1
  exact ⟨u, u1, u2.mono (h2.trans (by norm_num)), u3⟩

/-- A primitive made of the parameterized `xx` on neighbours among three qubits. -/
example : ∃ pu, ParamDefinitions.xx (.exact codeTau) = .ok pu ∧
    (Primitive.mk (.inr pu) (some [[0, 1], [1, 2]])).Nearly 3 codeTau 2.4e-11 := by
  obtain ⟨-, -, pu, h1, h2⟩ := C62_parameterized code_accurate (by unfold codeTau driftLimit; norm_num)
  refine ⟨pu, h1, C62_primitive h2 (by unfold codeTau; norm_num) (by norm_num) (by norm_num) ?_⟩
  rintro ls ⟨⟩ l hl
  fin_cases hl <;> simp

end Stoq
