import Verif.Model.PaperFiles
import Verif.Proofs.PaperBins
import Verif.Spec.PaperFiles

/-! # Lemmas on the files of the circuits -/

namespace Stoq

namespace Paper

theorem greedy_plain {g : List Char} (h : ∀ c ∈ g, c ≠ '\n' ∧ c ≠ '_') : greedy (g ++ "_1.txt".toList) = some g := by
  induction g with
  | nil => decide
  | cons c g ih =>
    obtain ⟨h1, -⟩ := h c (by simp)
    rw [List.cons_append, greedy, if_neg h1, ih fun x hx => h x (List.mem_cons_of_mem _ hx)]

theorem searchGroup_cons_of_not {marker : List Char} {c : Char} {cs : List Char} (h : marker.isPrefixOf (c :: cs) = false) :
    searchGroup marker (c :: cs) = searchGroup marker cs := by
  rw [searchGroup, h]
  rfl

theorem searchGroup_here {marker : List Char} {cs g : List Char} (hm : marker ≠ []) (h : greedy cs = some g) :
    searchGroup marker (marker ++ cs) = some g := by
  cases marker with
  | nil => exact absurd rfl hm
  | cons c m =>
    have hp : List.isPrefixOf (c :: m) (c :: (m ++ cs)) = true := by
      rw [List.isPrefixOf_iff_prefix]
      exact ⟨cs, rfl⟩
    have hd : (c :: (m ++ cs)).drop (c :: m).length = cs := by simp
    rw [List.cons_append, searchGroup, hp, hd, if_pos rfl, h]

theorem search_directory {kind : String} (hk : kind = "rav" ∨ kind = "xeb") {g : List Char} (h : ∀ c ∈ g, c ≠ '\n' ∧ c ≠ '_') :
    searchGroup (kind.toList ++ ['/']) (directory kind ++ '/' :: (g ++ "_1.txt".toList)) = some g := by
  have key : searchGroup (kind.toList ++ ['/']) ((kind.toList ++ ['/']) ++ (g ++ "_1.txt".toList)) = some g :=
    searchGroup_here (by simp) (greedy_plain h)
  rw [← key]
  rcases hk with rfl | rfl <;>
  · unfold directory
    rw [show "data/sequences/".toList = ['d', 'a', 't', 'a', '/', 's', 'e', 'q', 'u', 'e', 'n', 'c', 'e', 's', '/'] from by decide]
    simp only [List.cons_append, List.nil_append, List.append_assoc]
    iterate 15 rw [searchGroup_cons_of_not (by rfl)]

theorem digits_plain (n : ℕ) : ∀ c ∈ (toString n).toList, c ≠ '\n' ∧ c ≠ '_' := by
  intro c hc
  have : c.isDigit := by
    have h : (toString n).toList = Nat.toDigits 10 n := by simp
    rw [h] at hc
    exact Nat.isDigit_of_mem_toDigits (by decide) (by decide) hc
  constructor <;> rintro rfl <;> revert this <;> decide

theorem parseInt_toString (n : ℕ) : parseInt (toString n).toList = .ok (n : ℤ) := by
  have h : (toString n).toList = Nat.toDigits 10 n := by simp
  unfold parseInt
  rw [h, if_pos, Nat.ofDigitChars_ten_toDigits]
  refine ⟨?_, ?_⟩
  · intro h0
    have := Nat.ofDigitChars_ten_toDigits (n := n)
    have h1 := Nat.length_toDigits_pos (b := 10) (n := n)
    rw [h0] at h1
    simp at h1
  · rw [List.all_eq_true]
    exact fun c hc => Nat.isDigit_of_mem_toDigits (by decide) (by decide) hc

theorem rangeStep_two (m : ℕ) : rangeStep (2 * m) 2 = (List.range m).map (· * 2) := by
  unfold rangeStep
  rw [show (2 * m + 2 - 1) / 2 = m by omega]

theorem filterMap_eq_map_getElem {α : Type} (l : List α) (f : ℕ → ℕ) {m : ℕ} (h : ∀ j < m, f j < l.length) (j : ℕ) :
    (((List.range m).map f).filterMap (l[·]?))[j]? = if j < m then l[f j]? else none := by
  induction m with
  | zero => simp
  | succ m ih =>
    have hm := h m (by omega)
    have ih := ih fun j hj => h j (by omega)
    have hl : ∀ k ≤ m, (((List.range k).map f).filterMap (l[·]?)).length = k := by
      intro k hk
      induction k with
      | zero => rfl
      | succ k ihk =>
        have hk' := h k (by omega)
        rw [List.range_succ, List.map_append, List.filterMap_append, List.length_append, ihk (by omega)]
        simp [hk']
    rw [List.range_succ, List.map_append, List.filterMap_append]
    rcases lt_trichotomy j m with hj | rfl | hj
    · rw [List.getElem?_append_left (by rw [hl m le_rfl]; exact hj), ih, if_pos hj, if_pos (by omega)]
    · rw [List.getElem?_append_right (by rw [hl j le_rfl]), hl j le_rfl, if_pos (by omega)]
      simp [hm]
    · rw [List.getElem?_append_right (by rw [hl m le_rfl]; omega), hl m le_rfl, if_neg (by omega)]
      simp [hm]
      omega

theorem discardOdd_getElem? {α : Type} {l : List α} (h : 44 ≤ l.length) (j : ℕ) :
    (discardOdd l)[j]? = if j < 22 then l[2 * j]? else l[j + 22]? := by
  unfold discardOdd sliceStep
  rw [min_eq_left h, show (44 : ℕ) = 2 * 22 from rfl, rangeStep_two]
  have hget := filterMap_eq_map_getElem l (· * 2) (m := 22) (fun j hj => by omega)
  have hlen : (((List.range 22).map (· * 2)).filterMap (l[·]?)).length = 22 := by
    refine le_antisymm ?_ ?_
    · refine (List.length_filterMap_le _ _).trans ?_
      simp
    · by_contra hlt
      have := hget 21
      rw [List.getElem?_eq_none (by omega), if_pos (by omega), List.getElem?_eq_getElem (by omega)] at this
      simp at this
  by_cases hj : j < 22
  · rw [List.getElem?_append_left (by rw [hlen]; exact hj), hget, if_pos hj, if_pos hj, mul_comm]
  · rw [List.getElem?_append_right (by rw [hlen]; omega), hlen, if_neg hj, List.getElem?_drop]
    congr 1
    omega

theorem measured_getElem? (j : ℕ) : (discardOdd measured)[j]? = if j < 50 then some (2 * (j + 1)) else none := by
  rw [discardOdd_getElem? (by decide)]
  unfold measured
  by_cases h : j < 22
  · rw [if_pos h, if_pos (by omega), List.getElem?_append_left (by simp; omega), List.getElem?_map, List.getElem?_range (by omega)]
    exact congrArg some (by dsimp only; omega)
  · rw [if_neg h, List.getElem?_append_right (by simp; omega)]
    by_cases h' : j < 50
    · rw [if_pos h', List.getElem?_map, List.getElem?_range (by simp; omega)]
      simp
      omega
    · rw [if_neg h']
      simp
      omega

theorem discardOdd_map {α β : Type} (f : α → β) {l : List α} (h : 44 ≤ l.length) : discardOdd (l.map f) = (discardOdd l).map f := by
  refine List.ext_getElem? fun j => ?_
  rw [discardOdd_getElem? (by simpa using h), List.getElem?_map (l := discardOdd l), discardOdd_getElem? h]
  split <;> simp

theorem ravRuns_eq (shots : ℕ) :
    ((List.finRange 10).filter fun r : Fin 10 => decide (r.val ∉ ravIgnored shots)) = ravRuns shots := by
  unfold ravIgnored ravRuns
  by_cases h1 : shots = 50
  · subst h1; decide
  by_cases h2 : shots = 100
  · subst h2; decide
  by_cases h3 : shots = 5000
  · subst h3; decide
  simp only [h1, h2, h3, if_false]
  decide

theorem xebRuns_eq (shots : ℕ) :
    ((List.finRange 10).filter fun r : Fin 10 => decide (r.val ∉ xebIgnored shots)) = xebRuns shots := by
  unfold xebIgnored xebRuns
  by_cases h1 : shots = 500
  · subst h1; decide
  by_cases h2 : shots = 1000
  · subst h2; decide
  simp only [h1, h2, if_false]
  decide

end Paper

end Stoq
