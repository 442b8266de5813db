import Verif.Model.Parameterized
import Verif.Proofs.Unitary
import Mathlib.Tactic.Ring

/-! # Lemmas about parameters and parameterised unitaries -/

namespace Stoq

/-- Looking up a key in the display dictionary. -/
def dictGet (d : ParamDict) (k : String) : Option (ℝ × Bool) := (d.find? (fun kv => kv.1 == k)).map (·.2)

theorem dictGet_cons (k0 : String) (v0 : ℝ × Bool) (d : ParamDict) (k : String) :
    dictGet ((k0, v0) :: d) k = if k0 = k then some v0 else dictGet d k := by
  unfold dictGet
  rw [List.find?_cons]
  by_cases h : k0 = k
  · simp [h]
  · rw [show ((k0, v0).1 == k) = false by simpa using h, if_neg h]

theorem find?_map_replace (d : ParamDict) (k k' : String) (v : ℝ × Bool) :
    dictGet (d.map (fun kv => if kv.1 == k then (k, v) else kv)) k' =
      if k' = k then (dictGet d k).map (fun _ => v) else dictGet d k' := by
  induction d with
  | nil => simp [dictGet]
  | cons a d ih =>
    obtain ⟨ka, va⟩ := a
    rw [List.map_cons, dictGet_cons, dictGet_cons]
    by_cases h : ka = k
    · subst h
      simp only [beq_self_eq_true, if_true, dictGet_cons, ih]
      by_cases hk : k' = ka
      · simp [hk]
      · rw [if_neg (fun h => hk h.symm), if_neg hk, if_neg hk, if_neg (fun h => hk h.symm)]
    · have hb : (ka == k) = false := by simpa using h
      simp only [hb, dictGet_cons, ih, Bool.false_eq_true, if_false]
      by_cases hk : k' = k
      · subst hk; simp [h]
      · simp [hk]

theorem dictGet_any {d : ParamDict} {k : String} :
    d.any (fun kv => kv.1 == k) = true ↔ ∃ v, dictGet d k = some v := by
  induction d with
  | nil => simp [dictGet]
  | cons a d ih =>
    obtain ⟨ka, va⟩ := a
    rw [List.any_cons, dictGet_cons, Bool.or_eq_true, ih]
    by_cases h : ka = k
    · simp [h]
    · simp [h]

theorem dictGet_set (d : ParamDict) (k k' : String) (v : ℝ × Bool) :
    dictGet (dictSet d k v) k' = if k' = k then some v else dictGet d k' := by
  unfold dictSet
  split
  · rename_i h
    rw [find?_map_replace]
    obtain ⟨x, hx⟩ := dictGet_any.mp h
    simp [hx]
  · rename_i h
    have : dictGet d k = none := by
      cases hx : dictGet d k with
      | none => rfl
      | some x => exact absurd (dictGet_any.mpr ⟨x, hx⟩) h
    unfold dictGet at this ⊢
    rw [List.find?_append]
    by_cases hk : k' = k
    · subst hk
      simp only [Option.map_eq_none_iff] at this
      simp [this]
    · have hk2 : ¬ k = k' := fun h => hk h.symm
      simp [hk, hk2]

/-- The dictionary built by the comprehension in `as_unitary`. -/
def buildDict (l : List (Parameter × ℝ)) (d : ParamDict) : ParamDict :=
  l.foldl (fun d pv => dictSet d pv.1.name (pv.2, pv.1.isAngle)) d

theorem buildDict_get_notin (l : List (Parameter × ℝ)) (d : ParamDict) (k : String)
    (h : ∀ pv ∈ l, pv.1.name ≠ k) : dictGet (buildDict l d) k = dictGet d k := by
  induction l generalizing d with
  | nil => rfl
  | cons a l ih =>
    unfold buildDict at ih ⊢
    rw [List.foldl_cons, ih _ (fun pv hp => h pv (List.mem_cons_of_mem _ hp)), dictGet_set, if_neg]
    exact fun hk => h a (List.mem_cons_self) hk.symm

theorem buildDict_get (l : List (Parameter × ℝ)) (d : ParamDict) (i : ℕ) (p : Parameter) (v : ℝ)
    (hi : l[i]? = some (p, v)) (hl : ∀ j p' v', i < j → l[j]? = some (p', v') → p'.name ≠ p.name) :
    dictGet (buildDict l d) p.name = some (v, p.isAngle) := by
  induction l generalizing d i with
  | nil => simp at hi
  | cons a l ih =>
    cases i with
    | zero =>
      simp at hi
      subst hi
      have hnot : ∀ pv ∈ l, pv.1.name ≠ p.name := by
        intro pv hpv
        obtain ⟨j, hj⟩ := List.mem_iff_getElem?.mp hpv
        exact hl (j + 1) pv.1 pv.2 (by omega) (by simpa using hj)
      have := buildDict_get_notin l (dictSet d p.name (v, p.isAngle)) p.name hnot
      unfold buildDict at this ⊢
      rw [List.foldl_cons, this, dictGet_set, if_pos rfl]
    | succ i =>
      have := ih (dictSet d a.1.name (a.2, a.1.isAngle)) i (by simpa using hi)
        (fun j p' v' hj hp => hl (j + 1) p' v' (by omega) (by simpa using hp))
      unfold buildDict at this ⊢
      rw [List.foldl_cons, this]

theorem buildDict_nodup (l : List (Parameter × ℝ)) (d : ParamDict)
    (hn : (l.map (fun pv => pv.1.name)).Nodup) (hd : ∀ pv ∈ l, ∀ kv ∈ d, kv.1 ≠ pv.1.name) :
    buildDict l d = d ++ l.map (fun pv => (pv.1.name, (pv.2, pv.1.isAngle))) := by
  induction l generalizing d with
  | nil => simp [buildDict]
  | cons a l ih =>
    have hset : dictSet d a.1.name (a.2, a.1.isAngle) = d ++ [(a.1.name, (a.2, a.1.isAngle))] := by
      unfold dictSet
      rw [if_neg]
      intro h
      obtain ⟨kv, hkv, h⟩ := List.any_eq_true.mp h
      exact hd a List.mem_cons_self kv hkv (by simpa using h)
    rw [List.map_cons, List.nodup_cons] at hn
    have := ih (d ++ [(a.1.name, (a.2, a.1.isAngle))]) hn.2 (by
      intro pv hpv kv hkv
      rw [List.mem_append, List.mem_singleton] at hkv
      rcases hkv with hkv | rfl
      · exact hd pv (List.mem_cons_of_mem _ hpv) kv hkv
      · intro h
        exact hn.1 (List.mem_map.mpr ⟨pv, hpv, h.symm⟩))
    unfold buildDict at this ⊢
    rw [List.foldl_cons, hset, this]
    simp

/-- `as_unitary` on values of the right number and range. -/
theorem asUnitary_eq {τ : Arith} {pu : ParamUnitary} {values : List ℝ}
    (hlen : values.length = pu.parameters.length)
    (hv : ∀ pv ∈ pu.parameters.zip values, pv.1.IsValid pv.2) :
    pu.asUnitary τ values = (pu.parameterizedMatrix values >>= fun m =>
      Unitary.new τ pu.dimension (some m) (some pu.operationName)
        (some (buildDict (pu.parameters.zip values) []))) := by
  unfold ParamUnitary.asUnitary
  rw [raiseUnless_of (by omega), ok_bind, assertE_of hv, ok_bind, raiseUnless_of (by omega), ok_bind]
  rfl

theorem mem_zip_iff {α β : Type} {l : List α} {l' : List β} {a : α} {b : β} :
    (a, b) ∈ l.zip l' ↔ ∃ i : ℕ, l[i]? = some a ∧ l'[i]? = some b := by
  simp [List.mem_iff_getElem?, List.getElem?_zip_eq_some]

end Stoq
