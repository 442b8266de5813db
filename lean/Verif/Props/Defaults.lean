import Verif.Proofs.RepoRavTests
import Verif.Props.CompileRules
import Verif.Props.CompileStoq
import Verif.Props.HamiltonianSequences
import Verif.Props.Verification

/-!
# C90: calls that leave out optional arguments

Most theorems are about calls with all arguments.  Here the optional ones are left out.
-/

namespace Stoq

open Compiler Verification Matrix

/-- C90: what leaving out the optional arguments stands for. -/
theorem C90_calls (τ : Arith) :
    (∀ D prims, Compiler.new D prims = Compiler.new D prims false none 0.5 0.1) ∧
    (∀ (C : Compiler) target, C.compile τ target = C.compile τ target none (2 ^ 31 - 1)) ∧
    (∀ (C : Compiler) target counts, C.compileLayered τ target counts = C.compileLayered τ target counts none (2 ^ 31 - 1)) ∧
    (∀ D prims arr L threshold, generateRavSequence τ D prims arr L threshold =
      generateRavSequence τ D prims arr L threshold 0.5 none 10000) ∧
    (∀ D counts L threshold, generateLayeredRavSequence τ D counts L threshold =
      generateLayeredRavSequence τ D counts L threshold 0.5 10000) ∧
    (∀ (H : Hamiltonian) t N, H.getTrotterSequence τ t N = H.getTrotterSequence τ t N false) ∧
    (∀ (H : Hamiltonian) t m threshold, H.compileStoqSequence τ t m threshold = H.compileStoqSequence τ t m threshold false) ∧
    (∀ h t, UnitaryDefinitions.timeEvolution τ h t = UnitaryDefinitions.timeEvolution τ h t "") ∧
    (∀ h lo hi, ParamDefinitions.timeEvolution τ h lo hi = ParamDefinitions.timeEvolution τ h lo hi "") ∧
    (∀ d a, Unitary.new τ d a = Unitary.new τ d a (some "U") (some []) false []) ∧
    UnitaryDefinitions.xx τ = UnitaryDefinitions.xx τ (Real.pi / 4) ∧
    (∀ n, UnitaryDefinitions.gms τ n = UnitaryDefinitions.gms τ n (Real.pi / 4)) ∧
    (∀ u v : Unitary, u.closeTo τ v = u.closeTo τ v none) ∧ (∀ u, Primitive.new u = Primitive.new u none) ∧
    (∀ s e, Seq.appendFirst τ s e = Seq.appendFirst τ s e true) ∧ (∀ s e, Seq.appendLast τ s e = Seq.appendLast τ s e true) ∧
    (∀ s, Seq.removeFirst τ s = Seq.removeFirst τ s true) ∧ ∀ s, Seq.removeLast τ s = Seq.removeLast τ s true :=
  ⟨fun _ _ => rfl, fun _ _ => by norm_num, fun _ _ _ => by norm_num, fun _ _ _ _ _ => rfl, fun _ _ _ _ => rfl, fun _ _ _ => rfl,
    fun _ _ _ _ => rfl, fun _ _ => rfl, fun _ _ _ => rfl, fun _ _ => rfl, rfl, fun _ => rfl, fun _ _ => rfl,
    fun _ => rfl, fun _ _ => rfl, fun _ _ => rfl, fun _ => rfl, fun _ => rfl⟩

/-- C90: a call of `compile` with only the target stops before `2 ^ 31 - 1` steps only if the product passes the test of
equality up to a phase within the tolerance of numpy. -/
theorem C90_compile_stops {τ : Arith} {c : Client} {Cs : List Compiler} (hs : Session τ c Cs) {C : Compiler}
    (hC : C ∈ Cs) {target : Unitary} {R : CompilerResult} {w' : World}
    (h : (C.compile τ target : PyM World CompilerResult) c.world = (.ok R, w')) :
    R.costByStep.length ≤ 2147483647 ∧
    (R.costByStep.length < 2147483647 → ∃ p, Seq.product τ R.sequence w' = (.ok p, w') ∧ p.closeTo τ target none = .ok true) := by
  obtain ⟨h1, h2⟩ := C30_compile_stops hs hC h
  refine ⟨by omega, fun hlt => h2.resolve_right (by omega)⟩

/-- C90: a compiler made from the dimension and the primitives walks with the probability 1/2 of appending a gate, draws
the primitives uniformly, starts with the inverse temperature 0 and raises it by 0.1 (up to the cap) in every step. -/
theorem C90_compiler_walks {c : Client} {Cs : List Compiler} (hs : Session 0 c Cs)
    (hex : ∀ x ∈ c.world.entries, x.toVal.Exact) {n : ℕ} {prims : List Primitive} (hne : prims ≠ [])
    (hprims : ∀ q ∈ prims, q.Valid n) {target : Unitary} (ht : target.Exact (2 ^ n)) (threshold : Option ℝ) (m : ℤ) :
    ∃ C w', (Compiler.new (2 ^ n) prims : PyM World Compiler) c.world = (.ok C, w') ∧ C.annealingRate = 0.1 ∧
      w'.rng = c.world.rng ∧ FollowsWalk n C target threshold m
        (Metropolis.propose 0.5 (Metropolis.one (createRandomEntryVal 0 (2 ^ n) prims none)) 1) 0 w' (C.compile 0 target threshold m w') := by
  have hnew := new_compiler_ok false none 0.5 0.1 (by positivity) (fun q hq => valid_dimension (hprims q hq)) c.world
  refine ⟨_, _, hnew, rfl, rfl, ?_⟩
  exact C31_compile_is_walk (Session.newCompiler _ _ _ _ _ _ hs hnew) (by simp) hex rfl hprims (by simpa [Compiler.Truthy] using hne) ht
    (C36_new_compiler hnew).1 threshold m

/-- C90: without the flag, a Trotter sequence uses no random numbers and takes the terms in order in every step. -/
theorem C90_trotter_fixed {n : ℕ} {H : Hamiltonian} {Ms : List (Matrix (Fin (2 ^ n)) (Fin (2 ^ n)) ℂ)} {c : Client} {Cs : List Compiler}
    (hs : Session 0 c Cs) (hex : ∀ x ∈ c.world.entries, x.toVal.Exact) (hn : 1 ≤ n) (hH : H.Of Ms) (t : ℝ) {N : ℤ} (hN : 1 ≤ N) :
    ∃ s w' es, (H.getTrotterSequence 0 t N : PyM World SRef) c.world = (.ok s, w') ∧ Builds n es c.world s w' ∧
      w'.rng = c.world.rng ∧ List.Forall₂ (fun i e => ∃ M, Ms[i]? = some M ∧ Evolves n (toString i) M (t / N) e)
        (List.replicate N.toNat (List.range Ms.length)).flatten es := by
  obtain ⟨s, w', es, orders, h1, h2, h3, -, h4, h5⟩ := C47_trotter_gates hs hex hn hH t hN false
  obtain ⟨h6, h7⟩ := h4 rfl
  refine ⟨s, w', es, h1, h2, h6, ?_⟩
  rwa [← List.eq_replicate_iff.mpr ⟨h3, h7⟩]

/-- C90: without the flag, a compiled sequence consists of evolutions under single terms. -/
theorem C90_stoq_single {n : ℕ} {H : Hamiltonian} {Ms : List (Matrix (Fin (2 ^ n)) (Fin (2 ^ n)) ℂ)} {c : Client} {Cs : List Compiler}
    (hs : Session 0 c Cs) (hex : ∀ x ∈ c.world.entries, x.toVal.Exact) (hn : 1 ≤ n) (hH : H.Of Ms) {t m : ℝ} (hm : 0 ≤ m)
    (threshold : Option ℝ) :
    ∃ R w' es undo, (H.compileStoqSequence 0 t m threshold : PyM World CompilerResult) c.world = (.ok R, w') ∧
      w'.view R.sequence = some ⟨2 ^ n, false, es, undo⟩ ∧
      ∀ e ∈ es, ∃ (i : ℕ) (M : Matrix (Fin (2 ^ n)) (Fin (2 ^ n)) ℂ) (t' : ℝ), Ms[i]? = some M ∧ -m ≤ t' ∧ t' ≤ m ∧ SamePhase (e.op n) (evolution M t') := by
  obtain ⟨R, w', h⟩ := C51_stoq_never_raises hs hex hn hH t hm threshold false
  obtain ⟨es, undo, p, h1, h2, -⟩ := C51_stoq_distance hs hex hn hH hm h
  refine ⟨R, w', es, undo, h, h1, fun e he => ?_⟩
  obtain ⟨s, hs', t', k1, k2, k3⟩ := h2 e he
  rw [C50_single] at hs'
  obtain ⟨i, hi, rfl⟩ := List.mem_map.mp hs'
  have hlt : i < Ms.length := by simpa [hH.length] using hi
  refine ⟨i, Ms[i], t', List.getElem?_eq_getElem hlt, k1, k2, ?_⟩
  rw [op_full k3.qubits]
  simpa [subsetSum, hlt] using k3.phase

/-- C90: verification sequences with only the required arguments use at most 10000 steps for the second half. -/
theorem C90_rav_steps {τ : Arith} {c : Client} {Cs : List Compiler} (hs : Session τ c Cs) {D : ℕ}
    {prims : List Primitive} {arr : Bool} {counts : List (Primitive × ℤ)} {L : ℤ} {threshold : Option ℝ}
    {R : CompilerResult} {w' : World} :
    ((generateRavSequence τ D prims arr L threshold : PyM World CompilerResult) c.world = (.ok R, w') →
      R.costByStep.length ≤ 10000) ∧
    ((∀ pc ∈ counts, 0 ≤ pc.2) → (generateLayeredRavSequence τ D counts L threshold : PyM World CompilerResult) c.world = (.ok R, w') →
      R.costByStep.length ≤ 10000) := by
  constructor
  · intro h
    obtain ⟨-, _, _, _, -, -, -, h1, -⟩ := C42_rav_shape hs h
    omega
  · intro hc h
    obtain ⟨-, _, _, _, -, -, -, -, ⟨-, h1⟩, -⟩ := C43_layered_shape hs hc h
    omega

/-- Pauli X plus Pauli Z in a new session: a Trotter sequence of 8 evolutions in fixed order, a compiled sequence of single
terms, and a compiler over the evolutions, all without optional arguments. -/
example (rng : Rng) : ∃ H, Hamiltonian.Of (n := 1) [!![0, 1; 1, 0], !![1, 0; 0, -1]] H ∧
    (∃ s w' es, (H.getTrotterSequence 0 2 4 : PyM World SRef) (Client.start rng).world = (.ok s, w') ∧ w'.rng = rng ∧
      Builds 1 es (Client.start rng).world s w' ∧ es.length = 8) ∧
    (∃ R w', (H.compileStoqSequence 0 2 (1 / 4) (some (1 / 2)) : PyM World CompilerResult) (Client.start rng).world = (.ok R, w')) ∧
    (∃ prims C w' target, Unitary.identity 0 2 = .ok target ∧ H.getUnitaryPrimitives 0 (1 / 4) true = .ok prims ∧ prims.length = 3 ∧
      (Compiler.new (2 ^ 1) prims : PyM World Compiler) (Client.start rng).world = (.ok C, w') ∧
      FollowsWalk 1 C target none 5
        (Metropolis.propose 0.5 (Metropolis.one (createRandomEntryVal 0 (2 ^ 1) prims none)) 1) 0 w'
        (C.compile 0 target none 5 w')) := by
  obtain ⟨H, hH⟩ := example_xz
  have hs : Session 0 (Client.start rng) [] := .start rng
  have hex : ∀ x ∈ (Client.start rng).world.entries, x.toVal.Exact := by simp [Client.start]
  refine ⟨H, hH, ?_, ?_, ?_⟩
  · obtain ⟨s, w', es, h1, h2, h3, h4⟩ := C90_trotter_fixed hs hex le_rfl hH 2 (N := 4) (by norm_num)
    exact ⟨s, w', es, h1, h3, h2, by rw [← h4.length_eq]; rfl⟩
  · obtain ⟨R, w', es, undo, h, -⟩ := C90_stoq_single hs hex le_rfl hH (t := 2) (m := 1 / 4) (by norm_num) (some (1 / 2))
    exact ⟨R, w', h⟩
  · obtain ⟨prims, h1, h2, h3⟩ := C50_primitives le_rfl hH (m := 1 / 4) (by norm_num) true
    have hl : prims.length = 3 := by
      rw [← h3.length_eq]; unfold Hamiltonian.termSubsets; rw [hH.length]; rfl
    obtain ⟨target, h0, ht, -⟩ := Tests.identity_is 1
    obtain ⟨C, w', k1, -, -, k2⟩ := C90_compiler_walks hs hex (List.ne_nil_of_length_eq_add_one hl) h2
      ht none 5
    exact ⟨prims, C, w', target, h0, h1, hl, k1, k2⟩

end Stoq
