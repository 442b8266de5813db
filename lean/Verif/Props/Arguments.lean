import Verif.Proofs.Verification
import Verif.Proofs.Hamiltonian

/-!
# C60: which arguments constructors and generators refuse
-/

namespace Stoq

open Compiler Verification

/-- C60: `Hamiltonian(terms)` accepts exactly the non-empty lists of terms of one dimension, and stores the terms and
that dimension. -/
theorem C60_hamiltonian_accepts_iff (terms : List HamiltonianTerm) (H : Hamiltonian) :
    Hamiltonian.new terms = .ok H ↔
      terms ≠ [] ∧ (∀ t ∈ terms, t.dimension = H.dimension) ∧ H.terms = terms := by
  unfold Hamiltonian.new
  cases terms with
  | nil => simp
  | cons t0 ts =>
    by_cases h : ∀ t ∈ t0 :: ts, t.dimension = t0.dimension
    · simp only [assertE_of h, ok_bind]
      constructor
      · intro hH
        cases hH
        exact ⟨by simp, h, rfl⟩
      · rintro ⟨-, h1, h2⟩
        rcases H with ⟨D, l⟩
        simp only at h1 h2
        subst h2
        rw [← h1 t0 (by simp)]
        rfl
    · simp only [assertE_of_not h, error_bind]
      refine ⟨fun hH => (by cases hH), fun ⟨_, h1, _⟩ => absurd (fun t ht => ?_) h⟩
      rw [h1 t ht, h1 t0 (by simp)]

/-- C60: the other lists raise AssertionError. -/
theorem C60_hamiltonian_rejects (terms : List HamiltonianTerm)
    (h : terms = [] ∨ ∃ a ∈ terms, ∃ b ∈ terms, a.dimension ≠ b.dimension) :
    Hamiltonian.new terms = .error .assertion := by
  unfold Hamiltonian.new
  cases terms with
  | nil => rfl
  | cons t0 ts =>
    have : ¬ ∀ t ∈ t0 :: ts, t.dimension = t0.dimension := by
      intro hall
      rcases h with h | ⟨a, ha, b, hb, hab⟩
      · cases h
      · exact hab ((hall a ha).trans (hall b hb).symm)
    simp only [assertE_of_not this, error_bind]

open Classical in
/-- C60: `Compiler(...)` accepts exactly a positive dimension with primitives that are not larger; it stores its
arguments, the cap `(2 ^ dimension) ^ 2`, and annealing value 0 in a new object.  A refused call changes nothing. -/
theorem C60_compiler (D : ℕ) (prims : List Primitive) (arr : Bool) (probs : Option (List ℝ)) (p rate : ℝ) (w : World) :
    Compiler.new D prims arr probs p rate w =
      if 0 < D ∧ ∀ q ∈ prims, q.getDimension ≤ D then
        (.ok ⟨D, prims, arr, probs, ((2 : ℝ) ^ D) ^ 2, rate, p, w.betas.length⟩, { w with betas := w.betas ++ [0] })
      else (.error .assertion, w) := by
  unfold Compiler.new
  by_cases h1 : D > 0
  · rw [PyM.bind_of_ok (PyM.assert_of h1 w)]
    by_cases h2 : ∀ q ∈ prims, q.getDimension ≤ D
    · rw [PyM.bind_of_ok (PyM.assert_of h2 w), if_pos ⟨h1, h2⟩]; rfl
    · rw [PyM.bind_of_error (PyM.assert_of_not h2 w), if_neg (fun h => h2 h.2)]
  · rw [PyM.bind_of_error (PyM.assert_of_not h1 w), if_neg (fun h => h1 h.1)]

/-- C60: `compile` without primitives raises AssertionError, and with an array of several primitives ValueError (the
truth value of an array), whatever the target, threshold and budget; nothing changes. -/
theorem C60_compile_primitives (τ : Arith) (C : Compiler) (target : Unitary) (threshold : Option ℝ) (m : ℤ) (w : World) :
    (C.primitives = [] → C.compile τ target threshold m w = (.error .assertion, w)) ∧
    (C.primitivesIsArray = true → 1 < C.primitives.length →
      C.compile τ target threshold m w = (.error .valueError, w)) := by
  unfold compile
  constructor
  · intro h
    have h1 : ¬ (C.primitivesIsArray = true ∧ C.primitives.length > 1) := by rw [h]; simp
    rw [raiseUnless_of h1]
    have e : (PyM.lift (Except.ok ()) : PyM World Unit) w = (.ok (), w) := rfl
    rw [PyM.bind_of_ok e, PyM.bind_of_error (PyM.assert_of_not (by simp [h]) w)]
  · intro h1 h2
    rw [raiseUnless_of_not (fun h => h ⟨h1, h2⟩)]
    rfl

/-- C60: the verification functions refuse a negative length and primitives larger than the system, and nothing
changes. -/
theorem C60_verification (τ : Arith) (D : ℕ) (prims : List Primitive) (counts : List (Primitive × ℤ)) (arr : Bool) (L : ℤ)
    (threshold : Option ℝ) (p : ℝ) (probs : Option (List ℝ)) (m : ℤ) (w : World) :
    ((L < 0 ∨ ∃ q ∈ prims, D < q.getDimension) →
      generateRavSequence τ D prims arr L threshold p probs m w = (.error .assertion, w)) ∧
    ((L < 0 ∨ ∃ pc ∈ counts, D < pc.1.getDimension) →
      generateLayeredRavSequence τ D counts L threshold p m w = (.error .assertion, w) ∧
      generateXebSequence τ D counts L w = (.error .assertion, w)) := by
  constructor
  · intro h
    rw [rav_eq]
    refine checked_bad _ (fun hPQ => ?_) w
    rcases h with h | ⟨q, hq, h⟩
    · have := hPQ.2; omega
    · exact absurd (hPQ.1 q hq) (by omega)
  · intro h
    have key : ∀ t p' m', generateLayeredRavSequence τ D counts L t p' m' w = (.error .assertion, w) := by
      intro t p' m'
      rw [layeredRav_eq]
      refine checked_bad _ (fun hPQ => ?_) w
      rcases h with h | ⟨q, hq, h⟩
      · have := hPQ.2; omega
      · exact absurd (hPQ.1 q hq) (by omega)
    exact ⟨key _ _ _, key _ _ _⟩

open Classical in
/-- C60: `ParameterizedUnitary(...)` accepts exactly the positive dimensions. -/
theorem C60_parameterized (D : ℕ) (f : List ℝ → Except PyErr Arr) (ps : List Parameter) (name : String) :
    ParamUnitary.new D f ps name = if 0 < D then .ok ⟨D, f, ps, name⟩ else .error .assertion := by
  unfold ParamUnitary.new
  by_cases h : D > 0
  · rw [assertE_of h, if_pos h]; rfl
  · rw [assertE_of_not h, if_neg h]; rfl

/-! Each branch occurs. -/

example : ∃ t1 t2 : HamiltonianTerm, (∃ H, Hamiltonian.new [t1, t1] = .ok H) ∧
    Hamiltonian.new [t1, t2] = .error .assertion :=
  ⟨⟨2, 1, Arr.identity 2⟩, ⟨4, 1, Arr.identity 4⟩,
    ⟨⟨2, _⟩, (C60_hamiltonian_accepts_iff _ _).mpr ⟨by simp, by simp, rfl⟩⟩,
    C60_hamiltonian_rejects _ (.inr ⟨⟨2, 1, Arr.identity 2⟩, by simp, ⟨4, 1, Arr.identity 4⟩, by simp, by decide⟩)⟩

example (w : World) : (∃ C w', Compiler.new 2 [] false none 0.5 0.1 w = (.ok C, w')) ∧
    Compiler.new 0 [] false none 0.5 0.1 w = (.error .assertion, w) := by
  constructor
  · rw [C60_compiler, if_pos ⟨by norm_num, by simp⟩]; exact ⟨_, _, rfl⟩
  · rw [C60_compiler, if_neg (by simp)]

end Stoq
