import Mathlib.Data.List.Sort
import Mathlib.Data.List.Lex
import Mathlib.Data.Nat.Choose.Sum
import Std.Data.String.ToNat
import Verif.Proofs.Hamiltonian

/-! # Lemmas on the subsets of terms and the primitives made from them -/

namespace Stoq

open World Matrix UnitaryDefinitions

/-! ## `itertools.combinations` -/

theorem mem_combinations {α : Type _} {k : ℕ} {l s : List α} : s ∈ combinations k l ↔ s.Sublist l ∧ s.length = k := by
  induction l generalizing k s with
  | nil =>
    cases k with
    | zero => simp [combinations]
    | succ k =>
      simp only [combinations, List.not_mem_nil, List.sublist_nil, false_iff]
      rintro ⟨rfl, h⟩
      simp at h
  | cons a l ih =>
    cases k with
    | zero =>
      simp only [combinations, List.mem_singleton, List.length_eq_zero_iff]
      exact ⟨fun h => ⟨h ▸ List.nil_sublist _, h⟩, fun h => h.2⟩
    | succ k =>
      simp only [combinations, List.mem_append, List.mem_map, ih]
      constructor
      · rintro (⟨t, ⟨h1, h2⟩, rfl⟩ | ⟨h1, h2⟩)
        · exact ⟨h1.cons_cons a, by simp [h2]⟩
        · exact ⟨h1.cons a, h2⟩
      · rintro ⟨h1, h2⟩
        rcases List.sublist_cons_iff.mp h1 with h | ⟨t, rfl, h⟩
        · exact .inr ⟨h, h2⟩
        · exact .inl ⟨t, ⟨h, by simpa using h2⟩, rfl⟩

theorem combinations_length {α : Type _} (k : ℕ) (l : List α) : (combinations k l).length = l.length.choose k := by
  induction l generalizing k with
  | nil => cases k <;> simp [combinations]
  | cons a l ih =>
    cases k with
    | zero => simp [combinations]
    | succ k => simp [combinations, ih, Nat.choose_succ_succ]

/-- The order of `itertools.combinations` is lexicographic. -/
theorem combinations_lex {k : ℕ} {l : List ℕ} (hl : l.Pairwise (· < ·)) :
    (combinations k l).Pairwise (List.Lex (· < ·)) := by
  induction l generalizing k with
  | nil => cases k <;> simp [combinations]
  | cons a l ih =>
    rw [List.pairwise_cons] at hl
    cases k with
    | zero => simp [combinations]
    | succ k =>
      rw [combinations, List.pairwise_append]
      refine ⟨?_, ih hl.2, fun s hs t ht => ?_⟩
      · rw [List.pairwise_map]
        exact (ih hl.2).imp fun h => .cons h
      · obtain ⟨s', -, rfl⟩ := List.mem_map.mp hs
        obtain ⟨h1, h2⟩ := mem_combinations.mp ht
        rcases t with _ | ⟨b, t⟩
        · simp at h2
        · exact .rel (hl.1 b (h1.subset (by simp)))

theorem sublist_range_iff {k : ℕ} {s : List ℕ} :
    s.Sublist (List.range k) ↔ s.Pairwise (· < ·) ∧ ∀ i ∈ s, i < k := by
  constructor
  · intro h
    exact ⟨List.pairwise_lt_range.sublist h, fun i hi => List.mem_range.mp (h.subset hi)⟩
  · rintro ⟨h1, h2⟩
    refine List.sublist_of_subperm_of_pairwise (r := (· ≤ ·)) ?_ (h1.imp le_of_lt) (List.pairwise_lt_range.imp le_of_lt)
    exact List.subperm_of_subset (h1.imp ne_of_lt) fun i hi => List.mem_range.mpr (h2 i hi)

/-! ## Lists of results -/

theorem mapM_ok_iff {α β : Type} {f : α → Except PyErr β} {l : List α} {ys : List β} :
    l.mapM f = .ok ys ↔ List.Forall₂ (fun x y => f x = .ok y) l ys := by
  induction l generalizing ys with
  | nil =>
    rw [List.mapM_nil]
    constructor
    · intro h; cases h; exact .nil
    · intro h; cases h; rfl
  | cons a l ih =>
    rw [List.mapM_cons]
    constructor
    · intro h
      rcases ha : f a with e | b
      · rw [ha] at h; cases h
      · rw [ha, ok_bind] at h
        rcases hl : l.mapM f with e | bs
        · rw [hl] at h; cases h
        · rw [hl, ok_bind] at h
          cases h
          exact .cons ha (ih.mp hl)
    · intro h
      cases h with
      | cons h1 h2 => rw [h1, ok_bind, ih.mpr h2, ok_bind]; rfl

theorem mapM_ok {α β : Type} {f : α → Except PyErr β} {l : List α} (h : ∀ x ∈ l, ∃ y, f x = .ok y) :
    ∃ ys, l.mapM f = .ok ys := by
  induction l with
  | nil => exact ⟨[], rfl⟩
  | cons a l ih =>
    obtain ⟨y, hy⟩ := h a (by simp)
    obtain ⟨ys, hys⟩ := ih fun x hx => h x (by simp [hx])
    exact ⟨y :: ys, by rw [List.mapM_cons, hy, ok_bind, hys, ok_bind]; rfl⟩

/-! ## The primitives -/

/-- The object made by `time_evolution` of parameterized_unitary.py. -/
noncomputable def evolutionFamily (τ : Arith) (h : Arr) (tMin tMax : ℝ) (suffix : String) : ParamUnitary :=
  ⟨h.rows, fun vs => match vs with
    | [t] => do return (← timeEvolution τ h t suffix).getMatrix
    | _ => .error .typeError, [⟨"t", tMin, tMax, false⟩], "H" ++ suffix⟩

theorem param_evolution_eq {τ : Arith} {h : Arr} {tMin tMax : ℝ} {suffix : String} {pu : ParamUnitary}
    (hp : ParamDefinitions.timeEvolution τ h tMin tMax suffix = .ok pu) :
    tMin ≤ tMax ∧ pu = evolutionFamily τ h tMin tMax suffix := by
  unfold ParamDefinitions.timeEvolution Parameter.new ParamUnitary.new at hp
  by_cases h1 : h.IsHermitianClose
  swap
  · rw [assertE_of_not h1] at hp; cases hp
  by_cases h2 : tMin ≤ tMax
  swap
  · rw [assertE_of h1, ok_bind, assertE_of_not h2] at hp; cases hp
  by_cases h3 : h.rows > 0
  swap
  · rw [assertE_of h1, ok_bind, assertE_of h2, ok_bind, assertE_of (by decide), ok_bind, ok_bind, pure_except,
      ok_bind, assertE_of_not h3] at hp
    cases hp
  rw [assertE_of h1, ok_bind, assertE_of h2, ok_bind, assertE_of (by decide), ok_bind, ok_bind, pure_except, ok_bind,
    assertE_of h3, ok_bind] at hp
  cases hp
  exact ⟨h2, rfl⟩

theorem param_evolution_negative {τ : Arith} {h : Arr} {tMin tMax : ℝ} {suffix : String} (hlt : tMax < tMin) :
    ParamDefinitions.timeEvolution τ h tMin tMax suffix = .error .assertion := by
  unfold ParamDefinitions.timeEvolution Parameter.new
  by_cases h1 : h.IsHermitianClose
  · rw [assertE_of h1, ok_bind, assertE_of_not (not_le.mpr hlt)]; rfl
  · rw [assertE_of_not h1]; rfl

theorem primitive_new_eq {u : Unitary ⊕ ParamUnitary} {a : Option (List (List ℤ))} {p : Primitive}
    (h : Primitive.new u a = .ok p) : p = ⟨u, a⟩ := by
  unfold Primitive.new at h
  rcases a with _ | lists
  · cases h; rfl
  · simp only at h
    by_cases h1 : ∀ l ∈ lists, l.Nodup
    swap
    · rw [assertE_of_not h1] at h; cases h
    rw [assertE_of h1, ok_bind] at h
    by_cases h2 : ∀ l ∈ lists, 2 ^ l.length = Primitive.getDimension ⟨u, some lists⟩
    swap
    · rw [assertE_of_not h2] at h; cases h
    rw [assertE_of h2, ok_bind] at h
    by_cases h3 : ∀ l ∈ lists, l ≠ []
    swap
    · rw [raiseUnless_of_not h3] at h; cases h
    rw [raiseUnless_of h3, ok_bind] at h
    by_cases h4 : ∀ l ∈ lists, ∀ a ∈ l, 0 ≤ a
    swap
    · rw [assertE_of_not h4] at h; cases h
    rw [assertE_of h4, ok_bind] at h
    cases h; rfl

/-- The primitive for the given subset of terms. -/
noncomputable def Hamiltonian.subsetPrimitive (τ : Arith) (H : Hamiltonian) (m : ℝ) (s : List ℕ) : Primitive :=
  ⟨.inr (evolutionFamily τ (H.subsetMatrix s) (-m) m (Hamiltonian.subsetSuffix s)), some [H.applyTo]⟩

theorem primitives_eq {τ : Arith} {H : Hamiltonian} {m : ℝ} {b : Bool} {prims : List Primitive}
    (h : H.getUnitaryPrimitives τ m b = .ok prims) : prims = (H.termSubsets b).map (H.subsetPrimitive τ m) := by
  unfold Hamiltonian.getUnitaryPrimitives at h
  rw [mapM_ok_iff] at h
  generalize H.termSubsets b = l at h
  induction h with
  | nil => rfl
  | @cons s p l ps h1 _ ih =>
    rw [List.map_cons, ← ih]
    congr 1
    rcases hp : ParamDefinitions.timeEvolution τ (H.subsetMatrix s) (-m) m (Hamiltonian.subsetSuffix s) with e | pu
    · rw [hp] at h1; cases h1
    · rw [hp, ok_bind] at h1
      rw [primitive_new_eq h1, (param_evolution_eq hp).2]
      rfl

/-- What is known of a member of the family, for every matrix arithmetic. -/
theorem family_ok {τ : Arith} {a : Arr} {tMin tMax : ℝ} {s : String} {values : List ℝ} {u : Unitary}
    (h : (evolutionFamily τ a tMin tMax s).asUnitary τ values = .ok u) :
    ∃ t, values = [t] ∧ tMin ≤ t ∧ t ≤ tMax ∧ u.operationName = "H" ++ s ∧ u.parameterDict = [("t", (t, false))] ∧
      u.isInverse = false := by
  unfold ParamUnitary.asUnitary at h
  by_cases h1 : values.length ≤ (evolutionFamily τ a tMin tMax s).parameters.length
  swap
  · rw [raiseUnless_of_not h1] at h; cases h
  rw [raiseUnless_of h1, ok_bind] at h
  by_cases h2 : ∀ pv ∈ (evolutionFamily τ a tMin tMax s).parameters.zip values, pv.1.IsValid pv.2
  swap
  · rw [assertE_of_not h2] at h; cases h
  rw [assertE_of h2, ok_bind] at h
  by_cases h3 : (evolutionFamily τ a tMin tMax s).parameters.length ≤ values.length
  swap
  · rw [raiseUnless_of_not h3] at h; cases h
  rw [raiseUnless_of h3, ok_bind] at h
  obtain ⟨t, rfl⟩ : ∃ t, values = [t] := by
    rw [← List.length_eq_one_iff]; exact le_antisymm h1 h3
  have h4 : tMin ≤ t ∧ t ≤ tMax := h2 (⟨"t", tMin, tMax, false⟩, t) (by simp [evolutionFamily])
  dsimp only at h
  rcases hm : (evolutionFamily τ a tMin tMax s).parameterizedMatrix [t] with e | m
  · rw [hm] at h; cases h
  rw [hm, ok_bind] at h
  obtain ⟨-, -, -, -, -, rfl⟩ := Unitary.new_eq_ok.mp h
  exact ⟨t, rfl, h4.1, h4.2, rfl, rfl, rfl⟩

/-- The suffix determines the subset. -/
theorem subsetSuffix_inj {s t : List ℕ} (h : Hamiltonian.subsetSuffix s = Hamiltonian.subsetSuffix t) : s = t := by
  have hp : ∀ (s : List ℕ), ∀ l ∈ (s.map toString).map String.toList, '+' ∉ l := by
    intro s l hl hmem
    obtain ⟨x, hx, rfl⟩ := List.mem_map.mp hl
    obtain ⟨i, -, rfl⟩ := List.mem_map.mp hx
    have : (toString i).toList = Nat.toDigits 10 i := by
      simp [toString, Nat.repr]
    rw [this] at hmem
    have := Nat.isDigit_of_mem_toDigits (by decide) (by decide) hmem
    simp [Char.isDigit] at this
  have hne : ∀ s : List ℕ, Hamiltonian.subsetSuffix s = "" → s = [] := by
    intro s hs
    by_contra hne
    have h1 := congrArg (fun x => x.toList.splitOn '+') hs
    simp only [Hamiltonian.subsetSuffix] at h1
    rw [String.toList_intercalate, show "+".toList = ['+'] from rfl,
      List.splitOn_intercalate _ (hp s) (by simpa using hne)] at h1
    rcases s with _ | ⟨i, s⟩
    · exact hne rfl
    · have := congrArg List.head? h1
      simp at this
  unfold Hamiltonian.subsetSuffix at h hne
  rcases eq_or_ne s [] with rfl | hs
  · exact (hne t (by rw [← h]; rfl)).symm
  rcases eq_or_ne t [] with rfl | ht
  · exact hne s (by rw [h]; rfl)
  have h1 := congrArg String.toList h
  rw [String.toList_intercalate, String.toList_intercalate] at h1
  have h2 := congrArg (List.splitOn '+') h1
  rw [show "+".toList = ['+'] from rfl, List.splitOn_intercalate _ (hp s) (by simpa using hs),
    List.splitOn_intercalate _ (hp t) (by simpa using ht), List.map_map, List.map_map] at h2
  refine List.map_injective_iff.mpr (fun i j hij => ?_) h2
  exact Nat.repr_injective (String.toList_injective hij)

section Of

variable {n : ℕ} {Ms : List (Matrix (Fin (2 ^ n)) (Fin (2 ^ n)) ℂ)} {H : Hamiltonian}

theorem Hamiltonian.Of.subset (h : H.Of Ms) {s : List ℕ} (hs : ∀ i ∈ s, i < Ms.length) :
    (H.subsetMatrix s).Is (s.map fun i => Ms.getD i 0).sum ∧ (s.map fun i => Ms.getD i 0).sum.IsHermitian := by
  have key : ∀ i ∈ s, ∃ t M, H.terms[i]? = some t ∧ Ms[i]? = some M ∧ TermIs t M := by
    intro i hi
    rcases forall₂_getElem? h.terms.2.2 i with ⟨-, h3⟩ | ⟨a, b, h3, h4, h5⟩
    · rw [List.getElem?_eq_none_iff] at h3
      exact absurd (hs i hi) (not_lt.mpr h3)
    · exact ⟨a, b, h3, h4, h5⟩
  constructor
  · unfold Hamiltonian.subsetMatrix
    rw [h.terms.1]
    refine Arr.sum_is ?_
    clear hs
    induction s with
    | nil => exact .nil
    | cons i s ih =>
      obtain ⟨t, M, h1, h2, h3⟩ := key i (by simp)
      rw [List.filterMap_cons, h1, List.map_cons, List.getD_eq_getElem?_getD, h2]
      exact .cons h3.is (ih fun j hj => key j (by simp [hj]))
  · refine herm_sum fun N hN => ?_
    obtain ⟨i, hi, rfl⟩ := List.mem_map.mp hN
    obtain ⟨t, M, -, h2, h3⟩ := key i hi
    simp only [List.getD_eq_getElem?_getD, h2, Option.getD_some]
    exact h3.herm

theorem Hamiltonian.Of.subset_lt (h : H.Of Ms) {b : Bool} {s : List ℕ} (hs : s ∈ H.termSubsets b) :
    s ≠ [] ∧ ∀ i ∈ s, i < Ms.length := by
  rw [← h.length]
  unfold Hamiltonian.termSubsets at hs
  cases b
  · rw [if_neg (by simp)] at hs
    obtain ⟨i, hi, rfl⟩ := List.mem_map.mp hs
    exact ⟨by simp, by simpa using hi⟩
  · rw [if_pos rfl] at hs
    obtain ⟨k, hk, hs⟩ := List.mem_flatMap.mp hs
    obtain ⟨h1, h2⟩ := mem_combinations.mp hs
    rw [List.mem_range'_1] at hk
    refine ⟨?_, (sublist_range_iff.mp h1).2⟩
    rintro rfl
    simp at h2
    omega

end Of

end Stoq
