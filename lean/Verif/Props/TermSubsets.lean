import Verif.Props.HamiltonianSequences
import Verif.Proofs.TermSubsets

/-!
# C50: the subsets of terms used for compilation, and the primitives made from them
-/

namespace Stoq

open World Matrix UnitaryDefinitions

/-! ## The subsets -/

/-- C50: without simultaneous terms, the subsets are the single terms in order. -/
theorem C50_single (H : Hamiltonian) : H.termSubsets false = (List.range H.terms.length).map fun i => [i] := rfl

/-- C50: with simultaneous terms, the subsets (as increasing lists of indices) are all the non-empty ones. -/
theorem C50_members (H : Hamiltonian) (s : List ℕ) :
    s ∈ H.termSubsets true ↔ s ≠ [] ∧ s.Pairwise (· < ·) ∧ ∀ i ∈ s, i < H.terms.length := by
  unfold Hamiltonian.termSubsets
  rw [if_pos rfl, List.mem_flatMap]
  constructor
  · rintro ⟨k, hk, hs⟩
    obtain ⟨h1, h2⟩ := mem_combinations.mp hs
    rw [List.mem_range'_1] at hk
    refine ⟨?_, sublist_range_iff.mp h1⟩
    rintro rfl
    simp at h2
    omega
  · rintro ⟨h1, h2⟩
    have h3 := sublist_range_iff.mpr h2
    have h4 := h3.length_le
    rw [List.length_range] at h4
    have h5 := List.length_pos_of_ne_nil h1
    exact ⟨s.length, by rw [List.mem_range'_1]; omega, mem_combinations.mpr ⟨h3, rfl⟩⟩

/-- C50: smaller subsets come first, subsets of the same size in lexicographic order.  Together with the members this
determines the list. -/
theorem C50_order (H : Hamiltonian) : (H.termSubsets true).Pairwise fun s t =>
    s.length < t.length ∨ s.length = t.length ∧ List.Lex (· < ·) s t := by
  unfold Hamiltonian.termSubsets
  rw [if_pos rfl, List.pairwise_flatMap]
  constructor
  · intro k _
    refine (combinations_lex List.pairwise_lt_range).imp_of_mem fun hs ht h => ?_
    exact .inr ⟨by rw [(mem_combinations.mp hs).2, (mem_combinations.mp ht).2], h⟩
  · refine (List.pairwise_lt_range' (s := 1) (n := H.terms.length)).imp fun h s hs t ht => .inl ?_
    rwa [(mem_combinations.mp hs).2, (mem_combinations.mp ht).2]

/-- C50: no subset occurs twice. -/
theorem C50_once (H : Hamiltonian) (b : Bool) : (H.termSubsets b).Nodup := by
  cases b
  · rw [C50_single]
    exact List.nodup_range.map fun i j h => by simpa using h
  · refine (C50_order H).imp fun h => ?_
    rintro rfl
    rcases h with h | ⟨-, h⟩
    · exact lt_irrefl _ h
    · exact absurd h (irrefl_of (List.Lex (· < ·)) _)

/-- C50: there are `2^k - 1` subsets of `k` terms. -/
theorem C50_count (H : Hamiltonian) : (H.termSubsets true).length = 2 ^ H.terms.length - 1 := by
  unfold Hamiltonian.termSubsets
  rw [if_pos rfl, List.length_flatMap]
  simp only [combinations_length, List.length_range]
  have h := Nat.sum_range_choose H.terms.length
  rw [Finset.sum_range_succ', Nat.choose_zero_right] at h
  rw [List.range'_eq_map_range, List.map_map, ← h, Nat.add_sub_cancel, ← List.sum_toFinset _ List.nodup_range,
    List.toFinset_range]
  exact Finset.sum_congr rfl fun i _ => by simp [add_comm]

/-! ## The primitives -/

variable {n : ℕ} {Ms : List (Matrix (Fin (2 ^ n)) (Fin (2 ^ n)) ℂ)} {H : Hamiltonian}

/-- The sum of the terms with the given indices. -/
def subsetSum (Ms : List (Matrix (Fin (2 ^ n)) (Fin (2 ^ n)) ℂ)) (s : List ℕ) :
    Matrix (Fin (2 ^ n)) (Fin (2 ^ n)) ℂ :=
  (s.map fun i => Ms.getD i 0).sum

/-- The primitive evolves all `n` qubits under `M`, for any time of `[-m, m]` and no other, and may be used nowhere
else. -/
def EvolvesWithin (n : ℕ) (suffix : String) (M : Matrix (Fin (2 ^ n)) (Fin (2 ^ n)) ℂ) (m : ℝ) (p : Primitive) :
    Prop :=
  p.allowedApplyTo = some [(List.range n).map Int.ofNat] ∧ ∃ pu, p.unitary = .inr pu ∧ pu.parameters.length = 1 ∧
    (∀ t, -m ≤ t ∧ t ≤ m → ∃ u, pu.asUnitary 0 [t] = .ok u ∧ Evolves n suffix M t ⟨u, List.range n⟩) ∧
    ∀ t, ¬ (-m ≤ t ∧ t ≤ m) → pu.asUnitary 0 [t] = .error .assertion

theorem subset_primitive (hn : 1 ≤ n) (hH : H.Of Ms) {m : ℝ} (hm : 0 ≤ m) {s : List ℕ} (hs : ∀ i ∈ s, i < Ms.length) :
    (∃ p, (do
      let pu ← ParamDefinitions.timeEvolution 0 (H.subsetMatrix s) (-m) m (Hamiltonian.subsetSuffix s)
      Primitive.new (.inr pu) (some [H.applyTo])) = .ok p) ∧
    EvolvesWithin n (Hamiltonian.subsetSuffix s) (subsetSum Ms s) m (H.subsetPrimitive 0 m s) ∧
    (H.subsetPrimitive 0 m s).Valid n := by
  obtain ⟨h1, h2⟩ := hH.subset hs
  have hr : (H.subsetMatrix s).rows = 2 ^ n := h1.1
  obtain ⟨pu, h3, h4, h5, h6⟩ := C29_parameterized (by positivity) h1 h2 (show -m ≤ m by linarith)
    (Hamiltonian.subsetSuffix s)
  obtain ⟨-, rfl⟩ := param_evolution_eq h3
  have hev : ∀ t, -m ≤ t ∧ t ≤ m → ∃ u, (evolutionFamily 0 (H.subsetMatrix s) (-m) m
      (Hamiltonian.subsetSuffix s)).asUnitary 0 [t] = .ok u ∧
      Evolves n (Hamiltonian.subsetSuffix s) (subsetSum Ms s) t ⟨u, List.range n⟩ := by
    intro t ht
    obtain ⟨u, v, g1, g2, g3, g4, g5, g6⟩ := h5 t ht
    obtain ⟨v', g7, -, g8⟩ := Evolves.of hn h1 h2 t (Hamiltonian.subsetSuffix s)
    rw [g2] at g7
    cases g7
    refine ⟨u, g1, rfl, g3, ?_, g5, g6, ?_⟩
    · rw [show u.matrix.toMatrix (2 ^ n) = v.matrix.toMatrix (2 ^ n) from g4.2.2]
      exact g8.phase
    · obtain ⟨-, -, -, -, -, -, g9⟩ := family_ok g1
      exact g9
  refine ⟨?_, ⟨by rw [← hH.applyTo]; rfl, _, rfl, rfl, hev, fun t ht => h6 t ht⟩, ?_⟩
  · rw [h3, ok_bind]
    refine ⟨H.subsetPrimitive 0 m s, ?_⟩
    unfold Primitive.new Hamiltonian.subsetPrimitive
    rw [hH.applyTo]
    simp only
    rw [assertE_of, ok_bind, assertE_of, ok_bind, raiseUnless_of, ok_bind, assertE_of, ok_bind]
    · rfl
    · simp
    · simp
      omega
    · simp only [List.mem_singleton, forall_eq, List.length_map, List.length_range, Primitive.getDimension]
      exact h4.symm
    · simp only [List.mem_singleton, forall_eq]
      exact List.nodup_range.map Int.ofNat_injective
  · refine ⟨n, hn, le_rfl, ⟨hr, ?_, fun values hlen hv => ?_⟩, ?_⟩
    · simp only [evolutionFamily, List.mem_singleton, forall_eq]
      linarith
    · obtain ⟨t, rfl⟩ : ∃ t, values = [t] := by
        rw [← List.length_eq_one_iff]; exact hlen
      obtain ⟨v, g1, g2, -⟩ := C29_evolution (by positivity) h1 h2 t (Hamiltonian.subsetSuffix s)
      refine ⟨v.matrix, ?_, g2.rows, g2.cols, g2.unitary⟩
      simp only [evolutionFamily, g1, ok_bind, pure_except]
      rfl
    · simp only [Hamiltonian.subsetPrimitive, List.mem_singleton, forall_eq, hH.applyTo]
      refine ⟨List.nodup_range.map Int.ofNat_injective, by simp, ?_⟩
      simp

/-- C50: for `max_t_step ≥ 0` the primitives of the compilation are, in the order of the subsets, the evolutions under
the sum of the terms of the subset, for times in `[-max_t_step, max_t_step]`, on all qubits. -/
theorem C50_primitives (hn : 1 ≤ n) (hH : H.Of Ms) {m : ℝ} (hm : 0 ≤ m) (b : Bool) :
    ∃ prims, H.getUnitaryPrimitives 0 m b = .ok prims ∧ (∀ p ∈ prims, p.Valid n) ∧
      List.Forall₂ (fun s p => EvolvesWithin n (Hamiltonian.subsetSuffix s) (subsetSum Ms s) m p)
        (H.termSubsets b) prims := by
  have key : ∀ s ∈ H.termSubsets b, _ := fun s hs => subset_primitive hn hH hm (hH.subset_lt hs).2
  obtain ⟨prims, hp⟩ := mapM_ok (fun s hs => (key s hs).1)
  refine ⟨prims, hp, ?_⟩
  rw [primitives_eq hp]
  constructor
  · intro p hp
    obtain ⟨s, hs, rfl⟩ := List.mem_map.mp hp
    exact (key s hs).2.2
  · rw [List.forall₂_map_right_iff, List.forall₂_same]
    exact fun s hs => (key s hs).2.1

/-- C50: a negative `max_t_step` fails the assertion of the parameter range, for every matrix arithmetic. -/
theorem C50_negative (hH : H.Of Ms) {τ : Arith} {m : ℝ} (hm : m < 0) (b : Bool) :
    H.getUnitaryPrimitives τ m b = .error .assertion := by
  unfold Hamiltonian.getUnitaryPrimitives
  have hne : H.termSubsets b ≠ [] := by
    have h1 := hH.terms.2.1
    intro h
    have h2 : [0] ∈ H.termSubsets b := by
      have h3 : 0 < H.terms.length := List.length_pos_of_ne_nil h1
      cases b
      · rw [C50_single]; exact List.mem_map.mpr ⟨0, List.mem_range.mpr h3, rfl⟩
      · rw [C50_members]; simpa using h3
    rw [h] at h2
    cases h2
  rcases h : H.termSubsets b with _ | ⟨s, l⟩
  · exact absurd h hne
  · rw [List.mapM_cons, param_evolution_negative (by linarith)]
    rfl

/-- C50: two distinct subsets have distinct labels. -/
theorem C50_labels {s t : List ℕ} (h : Hamiltonian.subsetSuffix s = Hamiltonian.subsetSuffix t) : s = t :=
  subsetSuffix_inj h

/-- With three terms. -/
example (a b c : HamiltonianTerm) (d : ℕ) : (Hamiltonian.mk d [a, b, c]).termSubsets true =
    [[0], [1], [2], [0, 1], [0, 2], [1, 2], [0, 1, 2]] := rfl

/-- The primitives for Pauli X and Pauli Z: X, Z and X + Z. -/
example : ∃ H, Hamiltonian.Of (n := 1) [!![0, 1; 1, 0], !![1, 0; 0, -1]] H ∧
    ∃ p0 p1 p2, H.getUnitaryPrimitives 0 (1 / 2) true = .ok [p0, p1, p2] ∧
      EvolvesWithin 1 "0" !![0, 1; 1, 0] (1 / 2) p0 ∧ EvolvesWithin 1 "1" !![1, 0; 0, -1] (1 / 2) p1 ∧
      EvolvesWithin 1 "0+1" !![1, 1; 1, -1] (1 / 2) p2 := by
  obtain ⟨H, hH⟩ := example_xz
  obtain ⟨prims, h1, -, h2⟩ := C50_primitives le_rfl hH (m := 1 / 2) (by norm_num) true
  have hl := hH.length
  unfold Hamiltonian.termSubsets at h2
  rw [hl, if_pos rfl] at h2
  have h3 : (List.range' 1 [!![(0 : ℂ), 1; 1, 0], !![1, 0; 0, -1]].length).flatMap
      (fun k => combinations k (List.range [!![(0 : ℂ), 1; 1, 0], !![1, 0; 0, -1]].length)) =
      [[0], [1], [0, 1]] := rfl
  rw [h3] at h2
  cases h2 with
  | cons g1 h2 => cases h2 with
    | cons g2 h2 => cases h2 with
      | cons g3 h2 =>
        cases h2
        refine ⟨H, hH, _, _, _, h1, ?_, ?_, ?_⟩
        · rw [show subsetSum _ [0] = _ from add_zero _] at g1
          exact g1
        · rw [show subsetSum _ [1] = _ from add_zero _] at g2
          exact g2
        · have e : subsetSum (n := 1) [!![0, 1; 1, 0], !![1, 0; 0, -1]] [0, 1] = !![1, 1; 1, -1] := by
            ext i j
            fin_cases i <;> fin_cases j <;> simp [subsetSum]
          rw [e] at g3
          exact g3

end Stoq
