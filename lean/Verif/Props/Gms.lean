import Verif.Proofs.Gms
import Verif.Proofs.Parameterized
import Verif.Props.Entry
import Verif.Props.Gates
import Mathlib.Algebra.BigOperators.Intervals
import Mathlib.Data.Nat.Choose.Basic

/-!
# Property C28: the global Mølmer-Sørensen gate

In exact arithmetic with clean-up threshold 0, for every number of qubits and every angle.
-/

namespace Stoq

open Matrix Complex UnitaryDefinitions

theorem gmsLocal_ok {n : ℕ} (θ : ℝ) {p : ℕ × ℕ} (h : p.1 < p.2) (hn : p.2 < n) :
    ∃ f, gmsLocal 0 n θ p = .ok f ∧ f.Exact (2 ^ n) ∧
      f.matrix.toMatrix (2 ^ n) =
        NormedSpace.exp ((-I * θ) • (embed n [p.1] Gate.X * embed n [p.2] Gate.X)) := by
  obtain ⟨u, h1, h2, h3, -⟩ := C27_xx θ
  have hnd : [p.1, p.2].Nodup := by simpa using h.ne
  have hdim : u.getDimension = 2 ^ [p.1, p.2].length := h3.dim
  have hnew : EntryVal.new u [(p.1 : ℤ), (p.2 : ℤ)] = .ok ⟨u, [p.1, p.2]⟩ :=
    entry_new_ok (by simp) hnd hdim
  obtain ⟨f, f1, f2, f3⟩ := EntryVal.fullUnitary_exact (e := ⟨u, [p.1, p.2]⟩) (n := n) ⟨hnd, by simp, hdim⟩
    (by intro q hq; simp at hq; omega) h3
  refine ⟨f, ?_, f2, ?_⟩
  · unfold gmsLocal
    rw [h1, ok_bind, hnew, ok_bind, f1]
  · rw [f3, ← Gate.embed_rot_XX h.ne (by omega) hn]
    exact congrArg (embed n [p.1, p.2]) h2.2.2

theorem gmsFold_ok {n : ℕ} (θ : ℝ) (l : List (ℕ × ℕ)) (hl : ∀ p ∈ l, p.1 < p.2 ∧ p.2 < n) (acc : Unitary)
    (hacc : acc.Exact (2 ^ n)) :
    ∃ us r, l.mapM (gmsLocal 0 n θ) = .ok us ∧ us.foldlM (fun acc u => acc.leftMultiply 0 u) acc = .ok r ∧
      r.Exact (2 ^ n) ∧ r.matrix.toMatrix (2 ^ n) = l.foldl (fun acc p =>
        NormedSpace.exp ((-I * θ) • (embed n [p.1] Gate.X * embed n [p.2] Gate.X)) * acc)
        (acc.matrix.toMatrix (2 ^ n)) := by
  induction l generalizing acc with
  | nil => exact ⟨[], acc, rfl, rfl, hacc, rfl⟩
  | cons p l ih =>
    obtain ⟨hp, hpn⟩ := hl p List.mem_cons_self
    obtain ⟨f, f1, f2, f3⟩ := gmsLocal_ok θ hp hpn
    obtain ⟨x, x1, x2, x3⟩ := leftMultiply_exact hacc f2
    obtain ⟨us, r, r1, r2, r3, r4⟩ := ih (fun q hq => hl q (List.mem_cons_of_mem _ hq)) x x2
    refine ⟨f :: us, r, ?_, ?_, r3, ?_⟩
    · rw [List.mapM_cons, f1, ok_bind, r1, ok_bind]; rfl
    · rw [List.foldlM_cons, x1, ok_bind, r2]
    · rw [r4, x3, f3, List.foldl_cons]

theorem pairs_lt {n : ℕ} {l : List (ℕ × ℕ)} (hl : Gate.AllPairs n l) : ∀ p ∈ l, p.1 < p.2 ∧ p.2 < n :=
  fun p hp => (hl.2 p.1 p.2).mp hp

/-- The fold over all pairs is the exponential of the generator. -/
theorem fold_allPairs {n : ℕ} {l : List (ℕ × ℕ)} (hl : Gate.AllPairs n l) (θ : ℝ) :
    l.foldl (fun acc p => NormedSpace.exp ((-I * θ) • (embed n [p.1] Gate.X * embed n [p.2] Gate.X)) * acc) 1 =
      Gate.GMS n θ := by
  rw [Gate.exp_list _ _ (fun p hp => by have := pairs_lt hl p hp; omega), Gate.sum_allPairs hl, mul_one]; rfl

/-! ## C28 -/

/-- `gms(n, θ)` succeeds for every `n` and `θ` and holds `exp(-i θ Σ_{i<j} X_i X_j)`. -/
theorem C28_gms (n : ℕ) (θ : ℝ) : ∃ u, gms 0 n θ = .ok u ∧ u.Holds (Gate.GMS n θ) ∧ u.Exact (2 ^ n) ∧
    u.operationName = "GMS" ++ toString n ∧ u.parameterDict = [("θ", (θ, true))] := by
  have hall := Gate.gmsPairs_all n
  have hid : (Unitary.mk (Arr.identity (2 ^ n)) "I" [] false []).Exact (2 ^ n) := by
    refine ⟨Nat.two_pow_pos n, rfl, rfl, ?_⟩
    change (Arr.identity (2 ^ n)).toMatrix (2 ^ n) ∈ _
    rw [Arr.toMatrix_identity]; exact one_mem _
  obtain ⟨us, r, r1, r2, r3, r4⟩ := gmsFold_ok θ (gmsPairs n) (pairs_lt hall) _ hid
  have hG : r.matrix.toMatrix (2 ^ n) = Gate.GMS n θ := by
    rw [r4, ← fold_allPairs hall]
    change List.foldl _ ((Arr.identity (2 ^ n)).toMatrix (2 ^ n)) _ = _
    rw [Arr.toMatrix_identity]
  have := Unitary.new_su_holds r3.pos (a := r.matrix) ⟨r3.rows, r3.cols, hG⟩ (hG ▸ r3.2.2.2)
    (some ("GMS" ++ toString n)) (some [("θ", (θ, true))])
  obtain ⟨v, e1, e2, e3, e4, e5⟩ := this
  refine ⟨v, ?_, e2, e3, e4, e5⟩
  unfold gms
  rw [r1, ok_bind, Unitary.identity_eq (Nat.two_pow_pos n), ok_bind, r2, ok_bind]
  exact e1

theorem circuit_foldl (n : ℕ) (l : List EntryVal) (acc : Matrix (Fin (2 ^ n)) (Fin (2 ^ n)) ℂ) :
    circuit n l * acc = l.foldl (fun acc e => e.op n * acc) acc := by
  induction l generalizing acc with
  | nil => simp [circuit]
  | cons e l ih => rw [List.foldl_cons, ← ih, circuit, Matrix.mul_assoc]

/-- The gate is the circuit of `xx(θ)` gates on all pairs of qubits, in whatever order they are applied. -/
theorem C28_any_order (n : ℕ) (θ : ℝ) {l : List (ℕ × ℕ)} (hl : l.Nodup)
    (hpairs : ∀ i j, (i, j) ∈ l ↔ i < j ∧ j < n) : ∃ u x, gms 0 n θ = .ok u ∧ xx 0 θ = .ok x ∧
      u.Holds (circuit n (l.map fun p => ⟨x, [p.1, p.2]⟩)) := by
  obtain ⟨u, h1, h2, -⟩ := C28_gms n θ
  obtain ⟨x, x1, x2, -⟩ := C27_xx θ
  refine ⟨u, x, h1, x1, ?_⟩
  have hall : Gate.AllPairs n l := ⟨hl, hpairs⟩
  rw [← Matrix.mul_one (circuit n _), circuit_foldl, List.foldl_map]
  have : l.foldl (fun acc p => (EntryVal.mk x [p.1, p.2]).op n * acc) 1 = Gate.GMS n θ := by
    rw [← fold_allPairs hall]
    refine List.foldl_ext _ _ _ ?_
    intro acc p hp
    have hlt := pairs_lt hall p hp
    congr 1
    rw [← Gate.embed_rot_XX hlt.1.ne (by omega) hlt.2]
    exact congrArg (embed n [p.1, p.2]) x2.2.2
  rw [this]
  exact h2

/-- The order used below in the example: a list of pairs for three qubits that is not the library's order. -/
example (θ : ℝ) : ∃ u x, gms 0 3 θ = .ok u ∧ xx 0 θ = .ok x ∧
    u.Holds (circuit 3 [⟨x, [1, 2]⟩, ⟨x, [0, 1]⟩, ⟨x, [0, 2]⟩]) :=
  C28_any_order 3 θ (l := [(1, 2), (0, 1), (0, 2)]) (by decide) (by
    intro i j
    simp only [List.mem_cons, Prod.mk.injEq, List.not_mem_nil, or_false]
    omega)

theorem pairSum_ct (n : ℕ) : (Gate.pairSum n)ᴴ = Gate.pairSum n := by
  unfold Gate.pairSum
  rw [Matrix.conjTranspose_sum]
  refine Finset.sum_congr rfl fun i hi => ?_
  rw [Matrix.conjTranspose_sum]
  refine Finset.sum_congr rfl fun j hj => ?_
  rw [Finset.mem_range] at hi
  rw [Finset.mem_Ioo] at hj
  have hX : ∀ q, (embed n [q] Gate.X)ᴴ = embed n [q] Gate.X := fun q =>
    (embed_conjTranspose (a := [q]) Gate.X).symm.trans (congrArg (embed n [q]) Gate.X_ct)
  rw [conjTranspose_mul, hX, hX]
  exact (Gate.X_commute hi hj.2).symm

theorem GMS_add (n : ℕ) (a b : ℝ) : Gate.GMS n (a + b) = Gate.GMS n a * Gate.GMS n b := by
  unfold Gate.GMS
  rw [← Matrix.exp_add_of_commute _ _ (((Commute.refl _).smul_left _).smul_right _), ← add_smul]
  congr 2
  push_cast; ring

/-- For a fixed number of qubits the gates form a one-parameter group. -/
theorem C28_group (n : ℕ) : OneParameterGroup (fun θ => gms 0 n θ) (2 ^ n) := by
  have key : ∀ {θ u}, gms 0 n θ = .ok u → u.Holds (Gate.GMS n θ) ∧ u.Exact (2 ^ n) := by
    intro θ u hu
    obtain ⟨u', h1, h2, h3, -⟩ := C28_gms n θ
    rw [hu] at h1
    cases h1
    exact ⟨h2, h3⟩
  refine ⟨fun θ => ⟨_, (C28_gms n θ).choose_spec.1⟩, ?_, ?_, ?_⟩
  · intro a b u v w hu hv hw
    obtain ⟨u1, u2⟩ := key hu
    obtain ⟨v1, v2⟩ := key hv
    obtain ⟨w1, w2⟩ := key hw
    refine ⟨_, Unitary.leftMultiply_eq u2 v2, v2.rows, u2.cols, ?_⟩
    rw [w1.2.2]
    change (v.matrix.matmul u.matrix).toMatrix (2 ^ n) = _
    rw [Arr.toMatrix_matmul v2.cols, v1.2.2, u1.2.2, ← GMS_add, add_comm]
  · intro a u v hu hv
    obtain ⟨u1, u2⟩ := key hu
    obtain ⟨v1, v2⟩ := key hv
    refine ⟨_, Unitary.inverse_eq u2, u2.cols, u2.rows, ?_⟩
    rw [v1.2.2]
    change (u.matrix.ct).toMatrix (2 ^ n) = _
    rw [Arr.toMatrix_ct, u1.2.2]
    unfold Gate.GMS
    rw [← Matrix.exp_conjTranspose, conjTranspose_smul, pairSum_ct]
    congr 2
    simp
  · intro u hu
    have := (key hu).1
    unfold Gate.GMS at this
    simpa using this

/-- On two qubits the gate is `xx`. -/
theorem C28_two (θ : ℝ) : ∃ u x, gms 0 2 θ = .ok u ∧ xx 0 θ = .ok x ∧ u.Holds (x.matrix.toMatrix 4) := by
  obtain ⟨u, h1, h2, -⟩ := C28_gms 2 θ
  obtain ⟨x, x1, x2, -⟩ := C27_xx θ
  refine ⟨u, x, h1, x1, ?_⟩
  have e : Gate.GMS 2 θ = Gate.rot Gate.XX (2 * θ) := by
    have h3 := Gate.embed_rot_XX (n := 2) (i := 0) (j := 1) (by norm_num) (by norm_num) (by norm_num) θ
    have h4 : Gate.pairSum 2 = embed 2 [0] Gate.X * embed 2 [1] Gate.X := by
      unfold Gate.pairSum
      rw [Finset.sum_range_succ, Finset.sum_range_one, show Finset.Ioo 0 2 = {1} by rfl,
        show Finset.Ioo 1 2 = ∅ by rfl]
      simp
    unfold Gate.GMS
    rw [h4, ← h3]
    have : ∀ M : Matrix (Fin 4) (Fin 4) ℂ, embed 2 [0, 1] M = M := by
      intro M
      ext r s
      have hg : ∀ c : Fin 4, gather 2 [0, 1] c = c := by decide
      have ha : AgreeOff 2 [0, 1] r s := by
        intro q hq hq'
        simp at hq'
        omega
      rw [embed, if_pos ha]
      congr 1
      · exact Fin.ext (hg r)
      · exact Fin.ext (hg s)
    exact this _
  rw [x2.2.2, ← e]
  exact h2

/-- Zero or one qubit: nothing to couple, the gate is the identity. -/
theorem C28_small (θ : ℝ) : (∃ u, gms 0 0 θ = .ok u ∧ u.Holds (1 : Matrix (Fin 1) (Fin 1) ℂ)) ∧
    (∃ u, gms 0 1 θ = .ok u ∧ u.Holds (1 : Matrix (Fin 2) (Fin 2) ℂ)) := by
  constructor
  · obtain ⟨u, h1, h2, -⟩ := C28_gms 0 θ
    exact ⟨u, h1, by simpa [Gate.GMS, Gate.pairSum] using h2⟩
  · obtain ⟨u, h1, h2, -⟩ := C28_gms 1 θ
    have : Gate.pairSum 1 = 0 := by
      unfold Gate.pairSum
      rw [Finset.sum_range_one, show Finset.Ioo 0 1 = ∅ by rfl, Finset.sum_empty]
    unfold Gate.GMS at h2
    rw [this] at h2
    exact ⟨u, h1, by simpa using h2⟩

theorem gmsPairs_length (n : ℕ) : (gmsPairs n).length = n.choose 2 := by
  unfold gmsPairs
  rw [List.length_flatMap]
  simp only [List.length_map, List.length_range']
  have h := Finset.sum_range_reflect (fun i => i) n
  rw [Nat.choose_two_right, ← Finset.sum_range_id, ← h]
  have hs := List.sum_toFinset (fun i => n - 1 - i) (List.nodup_range (n := n))
  rw [List.toFinset_range] at hs
  rw [hs]
  congr 1
  exact List.map_congr_left fun i _ => by omega

/-- The fourth power of `gms(n, π/4)` is the identity up to the global phase `(-1)^(n choose 2)`. -/
theorem C28_quarter (n : ℕ) : ∃ u, gms 0 n (Real.pi / 4) = .ok u ∧
    u.matrix.toMatrix (2 ^ n) ^ 4 = ((-1 : ℂ) ^ n.choose 2) • 1 := by
  obtain ⟨u, h1, h2, -⟩ := C28_gms n (Real.pi / 4)
  refine ⟨u, h1, ?_⟩
  have e : Gate.GMS n (Real.pi / 4) ^ 4 = Gate.GMS n Real.pi := by
    have : Real.pi = Real.pi / 4 + Real.pi / 4 + Real.pi / 4 + Real.pi / 4 := by ring
    rw [this, GMS_add, GMS_add, GMS_add, ← this]
    simp only [pow_succ, pow_zero, one_mul]
  rw [h2.2.2, e, ← fold_allPairs (Gate.gmsPairs_all n), ← gmsPairs_length]
  have hl := pairs_lt (Gate.gmsPairs_all n)
  have hstep : ∀ p ∈ gmsPairs n,
      NormedSpace.exp ((-I * (Real.pi : ℝ)) • (embed n [p.1] Gate.X * embed n [p.2] Gate.X)) = -1 := by
    intro p hp
    obtain ⟨ha, hb⟩ := hl p hp
    have := Gate.rot_eq_exp (Gate.pair_sq ha.ne (by omega) hb) (2 * Real.pi)
    rw [show 2 * Real.pi / 2 = Real.pi by ring] at this
    rw [← this]
    simp [Gate.rot]
  generalize hacc : (1 : Matrix (Fin (2 ^ n)) (Fin (2 ^ n)) ℂ) = acc
  clear hacc hl e
  revert hstep
  generalize gmsPairs n = l
  intro hstep
  induction l generalizing acc with
  | nil => simp
  | cons p l ih =>
    rw [List.foldl_cons, hstep p List.mem_cons_self, ih _ fun q hq => hstep q (List.mem_cons_of_mem _ hq),
      List.length_cons, pow_succ]
    simp

/-- The parameterised gate evaluates to the gate. -/
theorem C28_parameterized (n : ℕ) : ∃ pu, ParamDefinitions.gms 0 n = .ok pu ∧ pu.dimension = 2 ^ n ∧
    ∀ θ, θ ∈ Set.Icc 0 (2 * Real.pi) → ∃ u, pu.asUnitary 0 [θ] = .ok u ∧ u.Exact (2 ^ n) ∧
      u.Holds (Gate.GMS n θ) ∧ u.operationName = "GMS" ++ toString n ∧
      u.parameterDict = [("theta", (θ, true))] := by
  refine ⟨_, ParamDefinitions.gms_eq 0 n, rfl, ?_⟩
  intro θ hθ
  rw [asUnitary_eq rfl (by
    intro pv hpv
    simp only [List.zip_cons_cons, List.zip_nil_right, List.mem_cons, List.not_mem_nil, or_false] at hpv
    subst hpv
    exact hθ)]
  obtain ⟨u, h1, h2, h3, -⟩ := C28_gms n θ
  obtain ⟨v, e1, e2, e3, e4, e5⟩ := Unitary.new_su_holds h3.pos h2
    (h2.2.2 ▸ h3.2.2.2) (some ("GMS" ++ toString n)) (some [("theta", (θ, true))])
  refine ⟨v, ?_, e3, e2, e4, e5⟩
  simp only [h1, ok_bind, pure_except]
  exact e1

end Stoq
