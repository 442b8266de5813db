import Verif.Proofs.RepoCompileTests
import Verif.Props.ContinuousRav

/-! # The tests of random circuits: what decides -/

namespace Stoq

open Matrix UnitaryDefinitions Tests MeasureTheory Verification

namespace Tests

variable {Cs : List Compiler} {p : Plain}

/-- The client that has done nothing, with its random numbers. -/
abbrev fresh (t : Rng.Tape) : Client := Client.start (Rng.start t)

theorem fresh_world (t : Rng.Tape) : (fresh t).world = (Client.start (Rng.start t)).world.reseed t := rfl

theorem nativePrimitives_eq : ∃ xy ms, ParamDefinitions.rotationXY 0 = .ok xy ∧ ParamDefinitions.xx 0 = .ok ms ∧
    nativePrimitives 0 = .ok (⟨.inr xy, none⟩, ⟨.inr ms, none⟩) := by
  obtain ⟨⟨xy, hxy, -⟩, -, ⟨ms, hms, -⟩⟩ := C27_parameterized
  refine ⟨xy, ms, hxy, hms, ?_⟩
  unfold nativePrimitives
  rw [hxy, ok_bind, (C11_primitive_trivial _).1, ok_bind, hms, ok_bind, (C11_primitive_trivial _).1, ok_bind]
  rfl

theorem identity_is (n : ℕ) : ∃ one, Unitary.identity 0 (2 ^ n) = .ok one ∧ one.Exact (2 ^ n) ∧
    one.matrix.toMatrix (2 ^ n) = 1 := by
  refine ⟨_, Unitary.identity_eq (Nat.two_pow_pos n), ⟨Nat.two_pow_pos n, rfl, rfl, ?_⟩, Arr.toMatrix_identity⟩
  simp only [Arr.toMatrix_identity]; exact one_mem _

/-- A call that returns a result, in the state at the beginning. -/
theorem returned_start {T : Task} (hT : T.Uses []) (hQ : T.OnQubits) {M : PyM World CompilerResult}
    (hrun : T.run 0 = do let R ← M; return R.sequence) {g : ℕ → PyM Client Unit} {b : SeqView → Prop} (t : Rng.Tape)
    (hg : ∀ R w v, M (fresh t).world = (.ok R, w) → w.view R.sequence = some v →
      Decides (Rel · ⟨[], [v]⟩) (g 0) (b v)) :
    ((returned 0 T >>= g) (fresh t)).1 = .ok () ↔
      ∃ R v, (M (fresh t).world).1 = .ok R ∧ (M (fresh t).world).2.view R.sequence = some v ∧ b v := by
  rw [returned_decides (Mirror.start _) hT hQ (b := b) ?_, hrun]
  · constructor
    · rintro ⟨s, w, v, e, hv, hb⟩
      obtain ⟨R, w', e1, e2⟩ := PyM.bind_eq_ok_iff.mp e
      cases e2
      exact ⟨R, v, by rw [e1], by rw [e1]; exact hv, hb⟩
    · rintro ⟨R, v, e, hv, hb⟩
      have : M (fresh t).world = (.ok R, (M (fresh t).world).2) := by rw [← e]
      exact ⟨R.sequence, _, v, PyM.bind_eq_ok_iff.mpr ⟨R, _, this, rfl⟩, hv, hb⟩
  · intro s w v e hv
    rw [hrun] at e
    obtain ⟨R, w', e1, e2⟩ := PyM.bind_eq_ok_iff.mp e
    cases e2
    exact hg R w v e1 hv

theorem passes_lift {α : Type} {x : Except PyErr α} {a : α} (hx : x = .ok a) {g : α → PyM Client Unit} (c : Client) :
    ((PyM.lift x >>= g) c).1 = (g a c).1 := by
  rw [PyM.bind_of_ok (by rw [PyM.lift_apply, hx])]

/-- The gates of these tests. -/
theorem native_ok {xy ms : ParamUnitary} (hxy : ParamDefinitions.rotationXY 0 = .ok xy) (hms : ParamDefinitions.xx 0 = .ok ms) :
    ∀ q ∈ [(⟨.inr xy, none⟩ : Primitive), ⟨.inr ms, none⟩], q.Valid 2 := native_valid le_rfl hxy hms

theorem rav_iff (fmt : ℕ → ℝ → String) {xy ms : ParamUnitary} (hxy : ParamDefinitions.rotationXY 0 = .ok xy)
    (hms : ParamDefinitions.xx 0 = .ok ms) (m : ℤ) (t : Rng.Tape) :
    (rav 0 fmt m (fresh t)).1 = .ok () ↔ ComesBack 2 0.5 (generateRavSequence 0 4 [⟨.inr xy, none⟩, ⟨.inr ms, none⟩] false 10
      (some 0.5) 0.5 none m (fresh t).world) := by
  obtain ⟨xy', ms', h1, h2, h3⟩ := nativePrimitives_eq
  rw [hxy] at h1; cases h1
  rw [hms] at h2; cases h2
  obtain ⟨one, i1, i2, i3⟩ := identity_is 2
  unfold rav
  rw [passes_lift h3]
  dsimp only
  rw [returned_start (T := .rav 4 [⟨.inr xy, none⟩, ⟨.inr ms, none⟩] false 10 (some 0.5) 0.5 none m) trivial
    ⟨2, rfl, native_ok hxy hms, by simp, rfl⟩ rfl (b := fun v => 0.5 ≤ overlap 1 (circuit 2 v.entries)) t ?_]
  · unfold ComesBack ReturnsGates
    constructor
    · rintro ⟨R, v, e, hv, hb⟩
      exact ⟨v.entries, R.costByStep, ⟨R, e, rfl, v, hv, rfl⟩, hb⟩
    · rintro ⟨_, _, ⟨R, e, -, v, hv, rfl⟩, hb⟩
      exact ⟨R, v, e, hv, hb⟩
  · intro R w v e hv
    obtain ⟨-, pre, compiled, undo, hv', -⟩ := C42_rav_shape (τ := 0) (c := fresh t) (.start _) e
    rw [hv] at hv'; cases hv'
    have := (assertClose_checks (p := ⟨[], [⟨4, false, pre ++ compiled, undo⟩]⟩) (s := 0) (n := 2) rfl rfl i1 i2 (some 0.5)).bind (b' := True)
      fun _ => (assertQasm_exact (s := 0) fmt rfl).decides (b := True) fun _ _ => (assertJaqal_exact (s := 0) fmt rfl).decides_true
    rw [i3] at this
    simp only [Metropolis.GoodEnough, and_true] at this
    refine fun c hc => (this c hc).trans ?_
    constructor <;> intro h <;> norm_num at h ⊢ <;> linarith

theorem layeredRav_iff (fmt : ℕ → ℝ → String) {xy ms : ParamUnitary} (hxy : ParamDefinitions.rotationXY 0 = .ok xy)
    (hms : ParamDefinitions.xx 0 = .ok ms) (m : ℤ) (t : Rng.Tape) :
    (layeredRav 0 fmt m (fresh t)).1 = .ok () ↔ ComesBack 2 0.5 (generateLayeredRavSequence 0 4
      [(⟨.inr xy, none⟩, 3), (⟨.inr ms, none⟩, 1)] 10 (some 0.5) 0.5 m (fresh t).world) := by
  obtain ⟨xy', ms', h1, h2, h3⟩ := nativePrimitives_eq
  rw [hxy] at h1; cases h1
  rw [hms] at h2; cases h2
  obtain ⟨one, i1, i2, i3⟩ := identity_is 2
  unfold layeredRav
  rw [passes_lift h3]
  dsimp only
  rw [returned_start (T := .layeredRav 4 [(⟨.inr xy, none⟩, 3), (⟨.inr ms, none⟩, 1)] 10 (some 0.5) 0.5 m) trivial
    ⟨2, rfl, by simpa using native_ok hxy hms⟩ rfl (b := fun v => 0.5 ≤ overlap 1 (circuit 2 v.entries)) t ?_]
  · unfold ComesBack ReturnsGates
    constructor
    · rintro ⟨R, v, e, hv, hb⟩
      exact ⟨v.entries, R.costByStep, ⟨R, e, rfl, v, hv, rfl⟩, hb⟩
    · rintro ⟨_, _, ⟨R, e, -, v, hv, rfl⟩, hb⟩
      exact ⟨R, v, e, hv, hb⟩
  · intro R w v e hv
    obtain ⟨-, pre, compiled, undo, hv', -, -, hlen, -⟩ := C43_layered_shape (τ := 0) (c := fresh t) (.start _) (by simp) e
    rw [hv] at hv'; cases hv'
    refine (entryCount_exact (p := ⟨[], [⟨4, false, pre.flatten ++ compiled.flatten, undo⟩]⟩) (s := 0) rfl).decides ?_
    rintro _ rfl
    refine Does.decides (Does.assert ?_) fun _ _ => ?_
    · simp only [List.map_cons, List.map_nil, List.sum_cons, List.sum_nil] at hlen
      change (pre.flatten ++ compiled.flatten).length % 4 = 0
      omega
    have := (assertClose_checks (p := ⟨[] ++ (pre.flatten ++ compiled.flatten), [⟨4, false, pre.flatten ++ compiled.flatten, undo⟩]⟩) (s := 0) (n := 2) rfl rfl i1 i2 (some 0.5)).bind (b' := True)
      fun _ => (assertQasm_exact (s := 0) fmt rfl).decides (b := True) fun _ _ => (assertJaqal_exact (s := 0) fmt rfl).decides_true
    rw [i3] at this
    simp only [Metropolis.GoodEnough, and_true] at this
    refine fun c hc => (this c hc).trans ?_
    constructor <;> intro h <;> norm_num at h ⊢ <;> linarith

theorem pass_ravNoInverse (fmt : ℕ → ℝ → String) (t : Rng.Tape) : (ravNoInverse 0 fmt (fresh t)).1 = .ok () := by
  obtain ⟨xy, ms, hxy, hms, h3⟩ := nativePrimitives_eq
  unfold ravNoInverse
  rw [passes_lift h3]
  dsimp only
  rw [returned_start (T := .rav 4 [⟨.inr xy, none⟩, ⟨.inr ms, none⟩] false 10 (some 0) 0.5 none 10000) trivial
    ⟨2, rfl, native_ok hxy hms, by simp, rfl⟩ rfl (b := fun v => True) t ?_]
  · obtain ⟨R, w', e⟩ := C42_rav_never_raises (c := fresh t) (n := 2) (.start _) (by simp [fresh, Client.start]) (native_ok hxy hms) (by simp)
      (arr := false) (by simp) (L := 10) (by norm_num) (t := 0) (by norm_num) (p := 0.5) (by norm_num) (probs := none)
      (by simp [ChoiceOk, Compiler.usable]) 10000
    obtain ⟨-, pre, compiled, undo, hv, -⟩ := C42_rav_shape (τ := 0) (c := fresh t) (.start _) e
    exact ⟨R, _, by rw [show (4 : ℕ) = 2 ^ 2 by norm_num, e], by rw [show (4 : ℕ) = 2 ^ 2 by norm_num, e]; exact hv, trivial⟩
  · intro R w v e hv
    obtain ⟨-, pre, undo, hv', hlen, -⟩ := C44_only_random (τ := 0) (c := fresh t) (.start _) (.inl rfl) e
    rw [hv] at hv'; cases hv'
    refine (assertLength_exact (p := ⟨[], [⟨4, false, pre, undo⟩]⟩) (s := 0) rfl (by exact_mod_cast hlen)).decides fun _ _ =>
      (assertQasm_exact fmt rfl).decides fun _ _ => (assertJaqal_exact fmt rfl).decides_true

theorem pass_xeb (fmt : ℕ → ℝ → String) (t : Rng.Tape) : (xeb 0 fmt (fresh t)).1 = .ok () := by
  obtain ⟨xy, ms, hxy, hms, h3⟩ := nativePrimitives_eq
  have hv : ∀ pc ∈ [((⟨.inr xy, none⟩ : Primitive), (3 : ℤ)), (⟨.inr ms, none⟩, 1)], pc.1.Valid 2 := by
    simpa using native_ok hxy hms
  unfold xeb
  rw [passes_lift h3]
  dsimp only
  rw [returned_start (T := .layeredRav 4 [(⟨.inr xy, none⟩, 3), (⟨.inr ms, none⟩, 1)] 10 (some 0) 0.5 0) trivial
    ⟨2, rfl, hv⟩ rfl (b := fun v => True) t ?_]
  · obtain ⟨R, w', e⟩ := C43_layered_never_raises (c := fresh t) (n := 2) (.start _) (by simp [fresh, Client.start]) hv (by simp)
      (L := 10) (by norm_num) (t := 0) (by norm_num) (p := 0.5) (by norm_num) 0
    obtain ⟨-, pre, compiled, undo, hv, -⟩ := C43_layered_shape (τ := 0) (c := fresh t) (.start _) (by simp) e
    exact ⟨R, _, by rw [show (4 : ℕ) = 2 ^ 2 by norm_num, e], by rw [show (4 : ℕ) = 2 ^ 2 by norm_num, e]; exact hv, trivial⟩
  · intro R w v e hv
    obtain ⟨-, pre, compiled, undo, hv', -, -, hlen, -, hskip⟩ := C43_layered_shape (τ := 0) (c := fresh t) (.start _) (by simp) e
    rw [hv] at hv'; cases hv'
    obtain ⟨rfl, -⟩ := hskip (.inl rfl)
    refine (assertLength_exact (p := ⟨[], [⟨4, false, pre.flatten ++ ([] : List (List EntryVal)).flatten, undo⟩]⟩) (s := 0) rfl ?_).decides fun _ _ =>
      (assertQasm_exact fmt rfl).decides fun _ _ => (assertJaqal_exact fmt rfl).decides_true
    simp only [List.map_cons, List.map_nil, List.sum_cons, List.sum_nil, List.length_nil] at hlen
    change (pre.flatten ++ ([] : List (List EntryVal)).flatten).length = _
    omega

end Tests

end Stoq
