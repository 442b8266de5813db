import Verif.Proofs.RepoSearch
import Verif.Proofs.RepoParam

/-! # The tests of compilers: when they pass -/

namespace Stoq

open Matrix UnitaryDefinitions Tests MeasureTheory

namespace Tests

/-! ## Primitives that may act anywhere -/

theorem fixed_valid {u : Unitary} {k n : ℕ} (hu : u.Exact (2 ^ k)) (h1 : 1 ≤ k) (hn : k ≤ n) :
    (⟨.inl u, none⟩ : Primitive).Valid n := ⟨k, h1, hn, hu, trivial⟩

theorem selectable_of_mem {prims : List Primitive} {q : Primitive} (hq : q ∈ prims) (ha : q.allowedApplyTo = none) :
    Selectable prims none q := by
  have : q ∈ placeable prims := List.mem_filter.mpr ⟨hq, by simp [ha]⟩
  obtain ⟨i, hi⟩ := List.mem_iff_getElem?.mp this
  exact ⟨i, hi, fun p hp => by cases hp⟩

theorem fixed_draw {prims : List Primitive} {u : Unitary} {n : ℕ} {qs : List ℕ} (hq : (⟨.inl u, none⟩ : Primitive) ∈ prims)
    (hu : u.Exact (2 ^ qs.length)) (hnd : qs.Nodup) (hne : qs ≠ []) (hlt : ∀ q ∈ qs, q < n) :
    CanDraw n prims none ⟨u, qs⟩ :=
  ⟨_, selectable_of_mem hq rfl, rfl, ⟨hnd, hlt⟩, hnd, hu.dim.symm, hne⟩

theorem choiceOk_of {prims : List Primitive} (hne : prims ≠ []) (h : ∀ q ∈ prims, q.allowedApplyTo = none) :
    ChoiceOk prims none := by
  unfold ChoiceOk
  rw [filter_usable]
  obtain ⟨q, hq⟩ := List.exists_mem_of_ne_nil _ hne
  exact List.length_pos_of_mem (List.mem_filter.mpr ⟨hq, by simp [h q hq]⟩)

theorem embed_whole (M : Matrix (Fin 2) (Fin 2) ℂ) : embed 1 [0] M = M := by
  ext i j
  have hi := i.2; have hj := j.2
  have g : ∀ a : ℕ, a < 2 ^ 1 → gather 1 [0] a = a := by intro a ha; simp [gather, qubit]; omega
  have h : AgreeOff 1 [0] i j := by intro q hq hn; interval_cases q; simp at hn
  simp only [embed, if_pos h, g _ hi, g _ hj]
  rfl

/-! ## `test_compile_identity` -/

theorem identity_exact (d : ℕ) (hd : 0 < d) : ∃ u, Unitary.identity 0 d = .ok u ∧ u.Exact d ∧ u.matrix.toMatrix d = 1 :=
  ⟨_, Unitary.identity_eq hd, ⟨hd, rfl, rfl, by rw [Arr.toMatrix_identity]; exact one_mem _⟩, Arr.toMatrix_identity⟩

theorem compileIdentity_iff (fmt : ℕ → ℝ → String) (m : ℤ) (t : Rng.Tape) : ∃ u : Unitary, u.Exact 2 ∧
    ((compileIdentity 0 fmt m (Client.start (Rng.start t))).1 = .ok () ↔
      Finds 1 [⟨.inl u, none⟩] 1 none m (Rng.start t) fun gates =>
        Metropolis.GoodEnough none (1 - overlap 1 (circuit 1 gates))) := by
  obtain ⟨u, h1, h2, h3⟩ := identity_exact 2 (by norm_num)
  refine ⟨u, h2, ?_⟩
  have hS : Setup 1 [⟨.inl u, none⟩] u :=
    ⟨by simpa using fixed_valid (k := 1) h2 le_rfl le_rfl, by simp, h2⟩
  refine Decides.of_prepared (b := fun r => Finds 1 _ _ _ m r _) (fun r => ?_) t
  unfold compileIdentity
  refine Does.decides (Does.lift (F := fun q => q = (⟨.inl u, none⟩ : Primitive))
    (by rw [h1, ok_bind]; exact (C11_primitive_trivial _).1) rfl) ?_
  rintro _ rfl
  refine Does.decides (newCompiler_does (by norm_num) (by simpa [Primitive.getDimension] using h2.dim.le)) ?_
  rintro _ rfl
  refine Does.decides (Does.lift (F := fun q => q = u) h1 rfl) ?_
  rintro _ rfl
  rw [← show _ = (1 : Matrix (Fin (2 ^ 1)) (Fin (2 ^ 1)) ℂ) from h3]
  exact compile_decides hS (by simp) (by simp) fun v hd _ => assertCompiled_decides fmt (by simp) hd h2

theorem finds_now {n : ℕ} {prims : List Primitive} {T : Matrix (Fin (2 ^ n)) (Fin (2 ^ n)) ℂ} {threshold : Option ℝ} {m : ℤ} {r : Rng}
    {b : List EntryVal → Prop}
    (h : Metropolis.GoodEnough threshold (1 - overlap T (circuit n []))) (hb : b []) :
    Finds n prims T threshold m r b := by
  refine ⟨[], r, ?_, hb⟩
  generalize m.toNat = k
  cases k with
  | zero => rfl
  | succ k =>
    unfold Metropolis.run
    split_ifs with hg
    · rfl
    · exact absurd h hg

theorem pass_compileIdentity (fmt : ℕ → ℝ → String) (m : ℤ) (t : Rng.Tape) :
    (compileIdentity 0 fmt m (Client.start (Rng.start t))).1 = .ok () := by
  obtain ⟨u, -, h3⟩ := compileIdentity_iff fmt m t
  have : Metropolis.GoodEnough none (1 - overlap (1 : Matrix (Fin (2 ^ 1)) (Fin (2 ^ 1)) ℂ) (circuit 1 [])) := by
    change |1 - overlap 1 1| ≤ _
    rw [overlap_self (by norm_num) (one_mem _)]
    norm_num
  exact h3.mpr (finds_now this this)

/-! ## `test_compile_sigmaz` -/

/-- The gates of that test and what decides. -/
theorem compileSigmaz_iff (fmt : ℕ → ℝ → String) : ∃ x y z : Unitary, x.Exact 2 ∧ y.Exact 2 ∧ z.Exact 2 ∧
    x.matrix.toMatrix 2 = Gate.rot Gate.X (Real.pi / 2) ∧ y.matrix.toMatrix 2 = Gate.rot Gate.Y (Real.pi / 2) ∧
    z.matrix.toMatrix 2 = (-Complex.I) • Gate.Z ∧
    ∀ (m : ℤ) (t : Rng.Tape), (compileSigmaz 0 fmt m (Client.start (Rng.start t))).1 = .ok () ↔
      Finds 1 [⟨.inl x, none⟩, ⟨.inl y, none⟩] (z.matrix.toMatrix (2 ^ 1)) none m (Rng.start t) fun gates =>
        Metropolis.GoodEnough none (1 - overlap (z.matrix.toMatrix (2 ^ 1)) (circuit 1 gates)) := by
  obtain ⟨x, x1, x2, x3, -⟩ := C27_rx (Real.pi / 2)
  obtain ⟨y, y1, y2, y3, -⟩ := C27_ry (Real.pi / 2)
  obtain ⟨-, -, z, z1, z2, z3, -⟩ := C27_pauli
  refine ⟨x, y, z, x3, y3, z2, x2.2.2, y2.2.2, z3.2.2, fun m t => ?_⟩
  have hS : Setup 1 [⟨.inl x, none⟩, ⟨.inl y, none⟩] z :=
    ⟨by simpa using ⟨fixed_valid (k := 1) x3 le_rfl le_rfl, fixed_valid (k := 1) y3 le_rfl le_rfl⟩, by simp, z2⟩
  refine Decides.of_prepared (b := fun r => Finds 1 _ _ _ m r _) (fun r => ?_) t
  unfold compileSigmaz
  refine Does.decides (Does.lift (F := fun q => q = (⟨.inl x, none⟩ : Primitive))
    (by rw [x1, ok_bind]; exact (C11_primitive_trivial _).1) rfl) ?_
  rintro _ rfl
  refine Does.decides (Does.lift (F := fun q => q = (⟨.inl y, none⟩ : Primitive))
    (by rw [y1, ok_bind]; exact (C11_primitive_trivial _).1) rfl) ?_
  rintro _ rfl
  refine Does.decides (newCompiler_does (by norm_num)
    (by simpa [Primitive.getDimension] using ⟨x3.dim.le, y3.dim.le⟩)) ?_
  rintro _ rfl
  refine Does.decides (Does.lift (F := fun q => q = z) z1 rfl) ?_
  rintro _ rfl
  exact compile_decides hS (by simp) (by simp) fun v hd _ => assertCompiled_decides fmt (by simp) hd z2

/-! ## `test_compile_two_qubits` -/

theorem newEntry_prepared {Cs : List Compiler} {p : Plain} {r : Rng} {u : Unitary} {x : Except PyErr Unitary} {d : ℕ}
    {qs : List ℤ} {e : EntryVal} (hx : x = .ok u) (hu : u.Exact d) (he : EntryVal.new u qs = .ok e) :
    Does (Prepared Cs p r) (newEntry 0 x qs) (fun i => i = p.entries.length)
      (Prepared Cs { p with entries := p.entries ++ [e] } r) := by
  unfold newEntry
  refine Does.bind (Does.lift (F := fun q => q = u) hx rfl) ?_
  rintro u rfl
  refine Does.get fun c hc => ?_
  have hl : c.entries.length = p.entries.length := List.Forall₂.length_eq hc.1.rel.2.ents
  have hs : p.step (.newEntry u qs) = (.ok .handle, { p with entries := p.entries ++ [e] }) := by
    simp only [Plain.step, he]
  refine Does.bind (F := fun _ => True) (Q := Prepared Cs { p with entries := p.entries ++ [e] } r) (Does.mono
    (Prepared.perform (p := p) (op := .newEntry u qs) (f := fun _ => some ()) ⟨d, hu⟩ (fun _ => trivial) (congrArg Prod.snd hs)
      (perform_exact (F := fun _ => True) ⟨d, hu⟩ (fun _ => trivial) hs fun _ _ => ⟨(), rfl, trivial⟩))
    (by rintro _ rfl; exact hc) (fun _ h => h) (fun _ h => h)) fun _ _ => Does.pure hl

theorem newSeq_prepared {Cs : List Compiler} {p : Plain} {r : Rng} {D n : ℕ} {arr : Bool} {es : List ℕ} {vs : List EntryVal}
    (hD : D = 2 ^ n) (hvs : getAll p.entries es = some vs) (hf : ∀ v ∈ vs, Plain.fits D v) :
    Does (Prepared Cs p r) (newSeq 0 D arr es) (fun i => i = p.seqs.length)
      (Prepared Cs { p with seqs := p.seqs ++ [⟨D, arr, vs, none⟩] } r) := by
  unfold newSeq
  refine Does.get fun c hc => ?_
  have hl : c.seqs.length = p.seqs.length := List.Forall₂.length_eq hc.1.rel.2.seqs
  have hs : p.step (.newSeq D arr es) = (.ok .handle, { p with seqs := p.seqs ++ [⟨D, arr, vs, none⟩] }) := by
    simp only [Plain.step, hvs, Plain.with_]
    rw [if_pos hf]
  refine Does.bind (F := fun _ => True) (Q := Prepared Cs { p with seqs := p.seqs ++ [⟨D, arr, vs, none⟩] } r) (Does.mono
    (Prepared.perform (p := p) (op := .newSeq D arr es) (f := fun _ => some ()) ⟨n, hD⟩ (fun _ => trivial) (congrArg Prod.snd hs)
      (perform_exact (F := fun _ => True) ⟨n, hD⟩ (fun _ => trivial) hs fun _ _ => ⟨(), rfl, trivial⟩))
    (by rintro _ rfl; exact hc) (fun _ h => h) (fun _ h => h)) fun _ _ => Does.pure hl

theorem product_prepared {Cs : List Compiler} {p : Plain} {r : Rng} {s n : ℕ} {v : SeqView} (hs : p.seqs[s]? = some v)
    (hd : v.dimension = 2 ^ n) :
    Does (Prepared Cs p r) (product 0 s)
      (fun u => u.Exact (2 ^ n) ∧ u.matrix.toMatrix (2 ^ n) = circuit n v.entries) (Prepared Cs p r) :=
  Prepared.perform (op := .product s) trivial (fun _ => trivial) (by simp only [Plain.step, hs, Plain.with_]) (product_exact hs hd)

/-- The gates of that test and what decides. -/
theorem compileTwoQubits_iff (fmt : ℕ → ℝ → String) : ∃ (x y x' : Unitary) (T : Matrix (Fin (2 ^ 2)) (Fin (2 ^ 2)) ℂ),
    x.Exact 2 ∧ y.Exact 4 ∧ x.matrix.toMatrix 2 = Gate.rot Gate.X (Real.pi / 2) ∧ SamePhase (y.matrix.toMatrix 4) Gate.CNOT ∧
    x'.matrix.toMatrix 2 = Gate.rot Gate.X Real.pi ∧ T = circuit 2 [⟨y, [0, 1]⟩, ⟨x', [0]⟩] ∧
    T ∈ unitaryGroup (Fin (2 ^ 2)) ℂ ∧
    ∀ (m : ℤ) (t : Rng.Tape), (compileTwoQubits 0 fmt m (Client.start (Rng.start t))).1 = .ok () ↔
      Finds 2 [⟨.inl x, none⟩, ⟨.inl y, none⟩] T none m (Rng.start t) fun gates =>
        Metropolis.GoodEnough none (1 - overlap T (circuit 2 gates)) := by
  obtain ⟨x, x1, x2, x3, -⟩ := C27_rx (Real.pi / 2)
  obtain ⟨x', w1, w2, w3, -⟩ := C27_rx Real.pi
  obtain ⟨y, y1, y2, y3, -⟩ := C27_cnot
  have e1 : EntryVal.new y [0, 1] = .ok ⟨y, [0, 1]⟩ := entry_new_ok (qs := [0, 1]) (by simp) (by simp) y2.dim
  have e2 : EntryVal.new x' [0] = .ok ⟨x', [0]⟩ := entry_new_ok (qs := [0]) (by simp) (by simp) w3.dim
  refine ⟨x, y, x', _, x3, y2, x2.2.2, y3, w2.2.2, rfl, ?_, fun m t => ?_⟩
  · refine (mem_specialUnitaryGroup_iff.mp (circuit_mem_su ?_)).1
    simp only [List.mem_cons, List.not_mem_nil, or_false, forall_eq_or_imp, forall_eq]
    exact ⟨⟨⟨by simp, by simp, y2.dim⟩, by simp [EntryVal.Fits], y2⟩, ⟨by simp, by simp, w3.dim⟩, by simp [EntryVal.Fits], w3⟩
  have hv : ∀ q ∈ [(⟨.inl x, none⟩ : Primitive), ⟨.inl y, none⟩], q.Valid 2 := by
    simpa using ⟨fixed_valid (k := 1) (n := 2) x3 le_rfl (by norm_num), fixed_valid (k := 2) (n := 2) y2 (by norm_num) le_rfl⟩
  refine Decides.of_prepared (b := fun r => Finds 2 _ _ _ m r _) (fun r => ?_) t
  unfold compileTwoQubits
  refine Does.decides (Does.lift (F := fun q => q = (⟨.inl x, none⟩ : Primitive))
    (by rw [x1, ok_bind]; exact (C11_primitive_trivial _).1) rfl) ?_
  rintro _ rfl
  refine Does.decides (Does.lift (F := fun q => q = (⟨.inl y, none⟩ : Primitive))
    (by rw [y1, ok_bind]; exact (C11_primitive_trivial _).1) rfl) ?_
  rintro _ rfl
  refine Does.decides (newCompiler_does (by norm_num)
    (by simpa [Primitive.getDimension] using ⟨x3.dim.le.trans (by norm_num), y2.dim.le⟩)) ?_
  rintro _ rfl
  refine Does.decides (newEntry_prepared y1 y2 e1) ?_
  rintro _ rfl
  refine Does.decides (newEntry_prepared w1 w3 e2) ?_
  rintro _ rfl
  refine Does.decides (newSeq_prepared (n := 2) (vs := [⟨y, [0, 1]⟩, ⟨x', [0]⟩]) rfl rfl (by simp [Plain.fits])) ?_
  rintro _ rfl
  refine Does.decides (product_prepared (n := 2) (v := ⟨4, false, [⟨y, [0, 1]⟩, ⟨x', [0]⟩], none⟩) rfl rfl) ?_
  rintro z ⟨z1, z2⟩
  rw [← z2]
  exact compile_decides ⟨hv, by simp, z1⟩ (by simp) (by simp) fun v hd _ => assertCompiled_decides fmt (by simp) hd z1

/-! ## Circuits for the targets -/

theorem op_whole (u : Unitary) : EntryVal.op ⟨u, [0]⟩ 1 = u.matrix.toMatrix (2 ^ 1) := embed_whole _

theorem sigmaz_word {x y z : Unitary} (hx : x.matrix.toMatrix 2 = Gate.rot Gate.X (Real.pi / 2))
    (hy : y.matrix.toMatrix 2 = Gate.rot Gate.Y (Real.pi / 2)) (hz : z.matrix.toMatrix 2 = (-Complex.I) • Gate.Z) :
    overlap (z.matrix.toMatrix (2 ^ 1)) (circuit 1 [⟨x, [0]⟩, ⟨x, [0]⟩, ⟨y, [0]⟩, ⟨y, [0]⟩]) = 1 := by
  have hX : Gate.rot Gate.X (Real.pi / 2) * Gate.rot Gate.X (Real.pi / 2) = (-Complex.I) • Gate.X := by
    rw [Gate.rot_add Gate.X_sq, add_halves]
    simp [Gate.rot]
  have hY : Gate.rot Gate.Y (Real.pi / 2) * Gate.rot Gate.Y (Real.pi / 2) = (-Complex.I) • Gate.Y := by
    rw [Gate.rot_add Gate.Y_sq, add_halves]
    simp [Gate.rot]
  have hc : circuit 1 [⟨x, [0]⟩, ⟨x, [0]⟩, ⟨y, [0]⟩, ⟨y, [0]⟩] = ((-Complex.I) • Gate.Y) * ((-Complex.I) • Gate.X) := by
    simp only [circuit, op_whole]
    rw [one_mul, mul_assoc, show x.matrix.toMatrix (2 ^ 1) = _ from hx, show y.matrix.toMatrix (2 ^ 1) = _ from hy, hX, hY]
  rw [hc, show z.matrix.toMatrix (2 ^ 1) = _ from hz]
  unfold overlap
  have : ((-Complex.I) • Gate.Z)ᴴ * ((-Complex.I) • Gate.Y * (-Complex.I) • Gate.X) = (-1 : ℂ) • 1 := by
    ext i j
    fin_cases i <;> fin_cases j <;>
      simp [Gate.X, Gate.Y, Gate.Z, Matrix.mul_apply, Fin.sum_univ_two, Matrix.conjTranspose_apply]
  rw [this]
  simp

theorem sigmaz_empty {z : Unitary} (hz : z.matrix.toMatrix 2 = (-Complex.I) • Gate.Z) :
    overlap (z.matrix.toMatrix (2 ^ 1)) (circuit 1 []) = 0 := by
  rw [show z.matrix.toMatrix (2 ^ 1) = _ from hz]
  unfold overlap circuit
  simp [Matrix.trace, Gate.Z, Fin.sum_univ_two, Matrix.conjTranspose_apply]

theorem two_word {x y x' : Unitary} (hx : x.matrix.toMatrix 2 = Gate.rot Gate.X (Real.pi / 2))
    (hx' : x'.matrix.toMatrix 2 = Gate.rot Gate.X Real.pi) :
    circuit 2 [⟨y, [0, 1]⟩, ⟨x, [0]⟩, ⟨x, [0]⟩] = circuit 2 [⟨y, [0, 1]⟩, ⟨x', [0]⟩] := by
  have hX : Gate.rot Gate.X (Real.pi / 2) * Gate.rot Gate.X (Real.pi / 2) = Gate.rot Gate.X Real.pi := by
    rw [Gate.rot_add Gate.X_sq, add_halves]
  simp only [circuit, one_mul]
  congr 1
  unfold EntryVal.op
  change embed 2 [0] (x.matrix.toMatrix 2) * embed 2 [0] (x.matrix.toMatrix 2) = embed 2 [0] (x'.matrix.toMatrix 2)
  have := embed_mul (n := 2) (a := [0]) (by simp) (by simp) (x.matrix.toMatrix 2) (x.matrix.toMatrix 2)
  rw [← this, hx, hx', hX]

theorem two_empty {y x' : Unitary} (hy : SamePhase (y.matrix.toMatrix 4) Gate.CNOT)
    (hx' : x'.matrix.toMatrix 2 = Gate.rot Gate.X Real.pi) :
    overlap (circuit 2 [⟨y, [0, 1]⟩, ⟨x', [0]⟩]) (circuit 2 []) = 0 := by
  have h1 : EntryVal.op ⟨y, [0, 1]⟩ 2 = y.matrix.toMatrix 4 := embed_two _
  have h2 : EntryVal.op ⟨x', [0]⟩ 2 = embed 2 [0] (Gate.rot Gate.X Real.pi) := by rw [← hx']; rfl
  have hr : Gate.rot Gate.X Real.pi = (-Complex.I) • Gate.X := by simp [Gate.rot]
  obtain ⟨c, -, hc⟩ := hy
  simp only [circuit, one_mul, h1, h2, hc]
  rw [overlap_comm]
  unfold overlap
  rw [conjTranspose_one, one_mul, hr]
  have : (embed 2 [0] ((-Complex.I) • Gate.X) * c • Gate.CNOT).trace = 0 := by
    simp only [Matrix.trace, Matrix.diag_apply, Matrix.mul_apply]
    refine Finset.sum_eq_zero fun i _ => Finset.sum_eq_zero fun k _ => ?_
    fin_cases i <;> fin_cases k <;> simp [embed, Gate.CNOT, Gate.X, gather, qubit]
  rw [this]
  simp

/-! ## `test_compile_sigmaz_approximate` -/

/-- The parametrised gate of that test. -/
noncomputable def testRotation : ParamUnitary :=
  ⟨2, rotationMatrix 0, [⟨"alpha", 0, 2 * Real.pi, true⟩, ⟨"beta", 0, 2 * Real.pi, true⟩, ⟨"gamma", 0, 2 * Real.pi, true⟩], "R"⟩

theorem testRotation_at {α β γ : ℝ} (hα : α ∈ Set.Icc 0 (2 * Real.pi)) (hβ : β ∈ Set.Icc 0 (2 * Real.pi))
    (hγ : γ ∈ Set.Icc 0 (2 * Real.pi)) :
    ∃ u, testRotation.asUnitary 0 [α, β, γ] = .ok u ∧ u.Exact 2 ∧
      u.Holds (Gate.rot Gate.Z α * Gate.rot Gate.Y β * Gate.rot Gate.Z γ) ∧
      u.parameterDict = [("alpha", (α, true)), ("beta", (β, true)), ("gamma", (γ, true))] := by
  rw [asUnitary_eq rfl (by
    intro pv hpv
    simp only [testRotation, List.zip_cons_cons, List.zip_nil_right, List.mem_cons, List.not_mem_nil, or_false] at hpv
    rcases hpv with rfl | rfl | rfl
    exacts [hα, hβ, hγ])]
  obtain ⟨v, e1, e2, e3, e4, e5⟩ := Unitary.new_su_holds (by norm_num : 0 < 2) (rotationXYZMatrix_is α β γ)
    (mul_mem (mul_mem (Gate.rot_Z_su α) (Gate.rot_Y_su β)) (Gate.rot_Z_su γ)) (some "R")
    (some [("alpha", (α, true)), ("beta", (β, true)), ("gamma", (γ, true))])
  exact ⟨v, e1, e3, e2, e5⟩

theorem testRotation_valid : (⟨.inr testRotation, none⟩ : Primitive).Valid 1 := by
  refine ⟨1, le_rfl, le_rfl, ⟨rfl, ?_, ?_⟩, trivial⟩
  · intro q hq
    have := Real.pi_pos
    simp only [testRotation, List.mem_cons, List.not_mem_nil, or_false] at hq
    rcases hq with rfl | rfl | rfl <;> change (0 : ℝ) ≤ 2 * Real.pi <;> positivity
  · intro values hlen _
    obtain ⟨α, β, γ, rfl⟩ := List.length_eq_three.mp hlen
    obtain ⟨e1, e2, e3⟩ := rotationXYZMatrix_is α β γ
    refine ⟨_, rfl, e1, e2, ?_⟩
    have := (mem_specialUnitaryGroup_iff.mp (mul_mem (mul_mem (Gate.rot_Z_su α) (Gate.rot_Y_su β)) (Gate.rot_Z_su γ))).1
    rw [← e3] at this
    exact this

theorem testRotation_continuous : testRotation.Continuous := by
  refine ParamUnitary.continuous_of (d := 2) (k := 3) rfl rfl (F := fun vs =>
    Gate.rot Gate.Z (vs.getD 0 0) * Gate.rot Gate.Y (vs.getD 1 0) * Gate.rot Gate.Z (vs.getD 2 0)) ?_ ?_
  · intro i j
    simp only [Matrix.mul_apply, List.ofFn_succ, List.ofFn_zero, List.getD_cons_succ, List.getD_cons_zero]
    refine continuous_finsetSum _ fun a _ => Continuous.mul (continuous_finsetSum _ fun b _ => Continuous.mul ?_ ?_) ?_
    all_goals exact continuous_rot (fun _ _ => continuous_const) (continuous_apply _) _ _
  · intro vs hvs a ha
    obtain ⟨α, β, γ, rfl⟩ := List.length_eq_three.mp hvs.1
    cases ha
    exact (UnitaryDefinitions.rotationXYZMatrix_is α β γ).2.2

theorem firstEntry_exact {p : Plain} {s : ℕ} {v : SeqView} (hs : p.seqs[s]? = some v) (hne : v.entries ≠ []) :
    Does (Rel · p) (firstEntry 0 s) (fun e => e = p.entries.length) (Rel · { p with entries := p.entries ++ v.entries }) := by
  unfold firstEntry
  refine Does.get fun c hc => ?_
  have hl : c.entries.length = p.entries.length := List.Forall₂.length_eq hc.ents
  refine Does.bind (F := fun l => l = v.entries) (Q := (Rel · { p with entries := p.entries ++ v.entries })) (Does.mono
    (perform_exact (p := p) (F := fun l => l = v.entries) (op := .getEntries s) (y := .entries v.entries) trivial (fun _ => trivial)
      (by simp only [Plain.step, hs, Plain.with_]) ?_) (by rintro _ rfl; exact hc) (fun _ h => h) (fun _ h => h)) ?_
  · rintro (_ | _ | _ | _ | l) h
    all_goals first | exact h.elim | skip
    exact ⟨_, rfl, h⟩
  · rintro _ rfl
    rcases hv : v.entries with _ | ⟨g, l⟩
    · exact absurd hv hne
    · exact Does.pure hl

theorem fullUnitary_exact {p : Plain} {e D : ℕ} {g : EntryVal} {u : Unitary} (he : p.entries[e]? = some g)
    (hu : g.fullUnitary 0 D = .ok u) : Does (Rel · p) (fullUnitary 0 e D) (fun u' => u' = u) (fun _ => True) := by
  intro c hc
  rcases forall₂_getElem? hc.ents e with ⟨h1, h2⟩ | ⟨r, g', h1, h2, hg⟩
  · rw [he] at h2; cases h2
  rw [he] at h2; cases h2
  obtain ⟨o, ho, rfl⟩ := hg
  have hw := getFullUnitary_wp hc.wf.entries ho D
  unfold Wp at hw
  rcases hx : Entry.getFullUnitary 0 r D c.world with ⟨res, w'⟩
  rw [hx] at hw
  obtain ⟨hres, -⟩ := hw
  simp only at hres
  rw [hu] at hres
  subst hres
  refine ⟨u, { c with world := w' }, ?_, rfl, trivial⟩
  unfold fullUnitary perform
  simp only [Client.step, h1, Client.with_, Client.call, hx, List.append_nil]

theorem approximate_empty {z : Unitary} (hz : z.matrix.toMatrix 2 = (-Complex.I) • Gate.Z) :
    ¬ Metropolis.GoodEnough (some 0.95) (1 - overlap (z.matrix.toMatrix (2 ^ 1)) (circuit 1 [])) := by
  rw [sigmaz_empty hz]
  norm_num [Metropolis.GoodEnough]

theorem compileSigmazApproximate_iff : ∃ z : Unitary, z.Exact 2 ∧ z.matrix.toMatrix 2 = (-Complex.I) • Gate.Z ∧
    ∀ (m : ℤ) (t : Rng.Tape), (compileSigmazApproximate 0 m (Client.start (Rng.start t))).1 = .ok () ↔
      Finds 1 [⟨.inr testRotation, none⟩] (z.matrix.toMatrix (2 ^ 1)) (some 0.95) m (Rng.start t) fun gates =>
        Metropolis.GoodEnough (some 0.95) (1 - overlap (z.matrix.toMatrix (2 ^ 1)) (circuit 1 gates)) := by
  obtain ⟨-, -, z, z1, z2, z3, -⟩ := C27_pauli
  refine ⟨z, z2, z3.2.2, fun m t => ?_⟩
  have hS : Setup 1 [⟨.inr testRotation, none⟩] z := ⟨by simpa using testRotation_valid, by simp, z2⟩
  refine Decides.of_prepared (b := fun r => Finds 1 _ _ _ m r _) (fun r => ?_) t
  unfold compileSigmazApproximate
  refine Does.decides (Does.lift (F := fun q => q = testRotation.parameters) rotationParameters_eq rfl) ?_
  rintro _ rfl
  refine Does.decides (Does.lift (F := fun q => q = testRotation) (by
    unfold ParamUnitary.new
    rw [assertE_of (by norm_num), ok_bind]
    rfl) rfl) ?_
  rintro _ rfl
  refine Does.decides (Does.lift (F := fun q => q = (⟨.inr testRotation, none⟩ : Primitive))
    (C11_primitive_trivial _).1 rfl) ?_
  rintro _ rfl
  refine Does.decides (newCompiler_does (by norm_num) (by simp [Primitive.getDimension, testRotation])) ?_
  rintro _ rfl
  refine Does.decides (Does.lift (F := fun q => q = z) z1 rfl) ?_
  rintro z rfl
  refine compile_decides hS (by simp) (by simp) fun v hd hprov => ?_
  have := (assertClose_checks (p := ⟨[], [] ++ [v]⟩) (s := 0) (by simp) hd (r := pure z) rfl z2 (some 0.95)).bind
    (b' := True) (rest := do
      let e ← firstEntry 0 0
      let u ← fullUnitary 0 e 2
      PyM.assert (u.getParameterValue "bogus" = none)
      PyM.assert (∀ p ∈ testRotation.parameters, u.getParameterValue p.name ≠ none)) fun hgood => ?_
  · simpa using this
  · have hne : v.entries ≠ [] := fun h => approximate_empty z3.2.2 (h ▸ hgood)
    refine Does.decides (firstEntry_exact (v := v) (by simp) hne) ?_
    rintro _ rfl
    obtain ⟨g, l, hv⟩ := List.exists_cons_of_ne_nil hne
    obtain ⟨hwf, q, hq, hrest⟩ := hprov g (by simp [hv])
    obtain rfl := List.mem_singleton.mp hq
    obtain ⟨hfrom, hqs⟩ := hrest
    obtain ⟨values, hlen, hin, hu⟩ := hfrom
    obtain ⟨α, β, γ, rfl⟩ := List.length_eq_three.mp hlen
    obtain ⟨u, e1, e2, -, e3⟩ := testRotation_at (α := α) (β := β) (γ := γ) (hin (⟨"alpha", 0, 2 * Real.pi, true⟩, α) (by simp [testRotation]))
      (hin (⟨"beta", 0, 2 * Real.pi, true⟩, β) (by simp [testRotation]))
      (hin (⟨"gamma", 0, 2 * Real.pi, true⟩, γ) (by simp [testRotation]))
    rw [hu] at e1
    cases e1
    have hdim : 2 ^ g.applyTo.length = 2 := by rw [← hwf.dim]; exact e2.dim
    have hfull := EntryVal.fullUnitary_eq (n := 1) hwf hqs.2 (by rw [hdim]; exact e2)
    refine Does.decides (fullUnitary_exact (g := g) (by simp [hv]) hfull) ?_
    rintro _ rfl
    have ha : ∀ k, (⟨g.fullArr 1, g.unitary.operationName, g.unitary.parameterDict, false, g.applyTo⟩ : Unitary).getParameterValue k =
        (([("alpha", (α, true)), ("beta", (β, true)), ("gamma", (γ, true))] : ParamDict).find? (fun kv => kv.1 == k)).map (·.2) := by
      intro k
      unfold Unitary.getParameterValue
      rw [e3]
    refine Does.decides (Does.assert ?_) fun _ _ => (Does.assert ?_).decides_true
    · rw [ha]; simp
    · intro p hp
      rw [ha]
      simp only [testRotation, List.mem_cons, List.not_mem_nil, or_false] at hp
      rcases hp with rfl | rfl | rfl <;> simp

end Tests

end Stoq
