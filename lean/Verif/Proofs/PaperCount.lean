import Verif.Model.PaperCount
import Verif.Props.Jaqal
import Verif.Spec.PaperCount

/-! # Lemmas on counting layers in a file -/

namespace Stoq

open Matrix

namespace Paper

theorem split_ne_nil (sep : Char) (l : List Char) : split sep l ≠ [] := by
  induction l with
  | nil => simp [split]
  | cons c cs ih =>
    unfold split
    split
    · simp
    · split <;> simp

theorem split_sep {sep : Char} {a b : List Char} (ha : sep ∉ a) : split sep (a ++ sep :: b) = a :: split sep b := by
  induction a with
  | nil => rw [List.nil_append, split, if_pos rfl]
  | cons c a ih =>
    rw [List.mem_cons, not_or] at ha
    rw [List.cons_append, split, if_neg (Ne.symm ha.1), ih ha.2]

theorem split_self {sep : Char} {a : List Char} (ha : sep ∉ a) : split sep a = [a] := by
  induction a with
  | nil => rfl
  | cons c a ih =>
    rw [List.mem_cons, not_or] at ha
    rw [split, if_neg (Ne.symm ha.1), ih ha.2]

theorem split_lines {sep : Char} {ls : List (List Char)} (hls : ∀ l ∈ ls, sep ∉ l) (h : ls ≠ []) (b : List Char) :
    split sep (List.intercalate [sep] ls ++ sep :: b) = ls ++ split sep b := by
  induction ls with
  | nil => exact absurd rfl h
  | cons l ls ih =>
    cases ls with
    | nil => simpa using split_sep (hls l (by simp))
    | cons l' ls =>
      have := ih (fun x hx => hls x (List.mem_cons_of_mem _ hx)) (by simp)
      rw [List.intercalate_cons_cons] 
      rw [show l ++ [sep] ++ [sep].intercalate (l' :: ls) ++ sep :: b = l ++ sep :: ([sep].intercalate (l' :: ls) ++ sep :: b) by simp,
        split_sep (hls l (by simp)), this]
      rfl

theorem split_lines_end {sep : Char} {ls : List (List Char)} (hls : ∀ l ∈ ls, sep ∉ l) (h : ls ≠ []) :
    split sep (List.intercalate [sep] ls) = ls := by
  induction ls with
  | nil => exact absurd rfl h
  | cons l ls ih =>
    cases ls with
    | nil => simpa using split_self (hls l (by simp))
    | cons l' ls =>
      have := ih (fun x hx => hls x (List.mem_cons_of_mem _ hx)) (by simp)
      rw [List.intercalate_cons_cons]
      rw [show l ++ [sep] ++ [sep].intercalate (l' :: ls) = l ++ sep :: ([sep].intercalate (l' :: ls)) by simp,
        split_sep (hls l (by simp)), this]

theorem readText_eq {l : List Char} (h : '\r' ∉ l) : readText l = l := by
  induction l with
  | nil => rfl
  | cons c cs ih =>
    rw [List.mem_cons, not_or] at h
    unfold readText
    split
    · contradiction
    · rename_i heq; exact absurd (List.cons.inj heq).1.symm h.1
    · rename_i heq; exact absurd (List.cons.inj heq).1.symm h.1
    · rename_i heq; cases heq; rw [ih h.2]

theorem valid_name {n : ℕ} {ss : List Jaqal.Statement} {U : Matrix (Fin (2 ^ n)) (Fin (2 ^ n)) ℂ}
    (h : Jaqal.meaning n ss = some U) : ∀ s ∈ ss, s.name ∈ ["R", "Rx", "Ry", "Rz", "MS"] := by
  induction ss generalizing U with
  | nil => simp
  | cons s ss ih =>
    rw [Jaqal.meaning] at h
    split at h
    · rcases hg : s.gate with _ | g
      · rw [hg] at h; cases h
      · rw [hg] at h
        rcases hm : Jaqal.meaning n ss with _ | V
        · rw [hm] at h; cases h
        · intro t ht
          rcases List.mem_cons.mp ht with rfl | ht
          · by_contra hno
            simp only [List.mem_cons, List.not_mem_nil, or_false, not_or] at hno
            unfold Jaqal.Statement.gate at hg
            split at hg <;> simp [hno] at hg
          · exact ih hm t ht
    · cases h

/-- What separates the lines. -/
def Breaks (l : List Char) : Prop := '\n' ∈ l ∨ '\r' ∈ l

instance (l : List Char) : Decidable (Breaks l) := inferInstanceAs (Decidable (_ ∨ _))

theorem no_break_append {a b : List Char} (ha : ¬ Breaks a) (hb : ¬ Breaks b) : ¬ Breaks (a ++ b) := by
  simp only [Breaks, List.mem_append, not_or] at *
  exact ⟨⟨ha.1, hb.1⟩, ha.2, hb.2⟩

theorem no_break_intercalate {ls : List (List Char)} (h : ∀ l ∈ ls, ¬ Breaks l) : ¬ Breaks (List.intercalate [' '] ls) := by
  induction ls with
  | nil => simp [Breaks]
  | cons l ls ih =>
    cases ls with
    | nil => simpa using h l (by simp)
    | cons l' ls =>
      rw [List.intercalate_cons_cons]
      exact no_break_append (no_break_append (h l (by simp)) (by decide)) (ih fun x hx => h x (List.mem_cons_of_mem _ hx))

theorem no_break_nat (n : ℕ) : ¬ Breaks (toString n).toList := by
  have h : (toString n).toList = Nat.toDigits 10 n := by simp [toString, Nat.repr]
  have key : ∀ c ∈ Nat.toDigits 10 n, c.isDigit := fun c hc => Nat.isDigit_of_mem_toDigits (by decide) (by decide) hc
  rintro (hc | hc) <;> rw [h] at hc <;> have := key _ hc <;> simp [Char.isDigit] at this

/-- The characters of a line: the name, a space, and something without line breaks. -/
theorem line_eq {fmt : ℝ → String} (hf : Jaqal.OneLine fmt) (s : Jaqal.Statement) :
    ∃ rest, (s.line fmt).toList = s.name.toList ++ ' ' :: rest ∧ ¬ Breaks rest := by
  refine ⟨(" ".intercalate (s.qubits.map fun q => "q[" ++ toString q ++ "]")).toList ++
    ([' '] ++ (" ".intercalate (s.values.map fmt)).toList), by
    unfold Jaqal.Statement.line
    simp only [String.toList_append, List.append_assoc]
    rfl, ?_⟩
  refine no_break_append ?_ (no_break_append (by decide) ?_)
  · rw [String.toList_intercalate]
    refine no_break_intercalate fun l hl => ?_
    simp only [List.map_map, List.mem_map, Function.comp] at hl
    obtain ⟨q, -, rfl⟩ := hl
    simp only [String.toList_append]
    exact no_break_append (no_break_append (by decide) (no_break_nat q)) (by decide)
  · rw [String.toList_intercalate]
    refine no_break_intercalate fun l hl => ?_
    simp only [List.map_map, List.mem_map, Function.comp] at hl
    obtain ⟨x, -, rfl⟩ := hl
    rintro (h | h)
    · exact (hf x _ h).1 rfl
    · exact (hf x _ h).2 rfl

theorem line_facts {fmt : ℝ → String} (hf : Jaqal.OneLine fmt) {s : Jaqal.Statement}
    (hs : s.name ∈ ["R", "Rx", "Ry", "Rz", "MS"]) :
    ¬ Breaks (s.line fmt).toList ∧
      "MS".toList.isPrefixOf ((split ' ' (s.line fmt).toList).headD []) = decide (s.name = "MS") ∧
      "MS".toList.isPrefixOf (s.line fmt).toList = decide (s.name = "MS") := by
  obtain ⟨rest, h1, h2⟩ := line_eq hf s
  rw [h1]
  simp only [List.mem_cons, List.not_mem_nil, or_false] at hs
  rcases hs with hs | hs | hs | hs | hs <;> rw [hs] <;>
    exact ⟨no_break_append (by decide) (by simpa [Breaks] using h2), by rw [split_sep (by decide)]; rfl, rfl⟩

theorem count_lines {fmt : ℝ → String} (hf : Jaqal.OneLine fmt) {ss : List Jaqal.Statement}
    (hs : ∀ s ∈ ss, s.name ∈ ["R", "Rx", "Ry", "Rz", "MS"]) :
    ((ss.map fun s => (s.line fmt).toList).filter fun l => "MS".toList.isPrefixOf ((split ' ' l).headD [])).length =
        Jaqal.msCount ss ∧
      ((ss.map fun s => (s.line fmt).toList).filter fun l => "MS".toList.isPrefixOf l).length = Jaqal.msCount ss := by
  unfold Jaqal.msCount
  rw [← List.countP_eq_length_filter, ← List.countP_eq_length_filter, List.countP_map, List.countP_map]
  refine ⟨List.countP_congr fun s hs' => ?_, List.countP_congr fun s hs' => ?_⟩
  · rw [Function.comp, (line_facts hf (hs s hs')).2.1]
  · rw [Function.comp, (line_facts hf (hs s hs')).2.2]


theorem no_return {ls : List (List Char)} (h : ∀ l ∈ ls, '\r' ∉ l) : '\r' ∉ List.intercalate ['\n'] ls := by
  induction ls with
  | nil => simp
  | cons l ls ih =>
    cases ls with
    | nil => simpa using h l (by simp)
    | cons l' ls =>
      rw [List.intercalate_cons_cons]
      simp only [List.mem_append, not_or]
      exact ⟨⟨h l (by simp), by decide⟩, ih fun x hx => h x (List.mem_cons_of_mem _ hx)⟩

/-- The characters of the gate lines. -/
theorem split_body {fmt : ℝ → String} (hf : Jaqal.OneLine fmt) {ss : List Jaqal.Statement}
    (hs : ∀ s ∈ ss, s.name ∈ ["R", "Rx", "Ry", "Rz", "MS"]) :
    '\r' ∉ ("\n".intercalate (ss.map (Jaqal.Statement.line fmt))).toList ∧
    (∀ b, split '\n' (("\n".intercalate (ss.map (Jaqal.Statement.line fmt))).toList ++ '\n' :: b) =
      (if ss = [] then [[]] else ss.map fun s => (s.line fmt).toList) ++ split '\n' b) ∧
    split '\n' ("\n".intercalate (ss.map (Jaqal.Statement.line fmt))).toList =
      if ss = [] then [[]] else ss.map fun s => (s.line fmt).toList := by
  have e : ("\n".intercalate (ss.map (Jaqal.Statement.line fmt))).toList =
      List.intercalate ['\n'] (ss.map fun s => (s.line fmt).toList) := by
    rw [String.toList_intercalate, List.map_map]; rfl
  have hb : ∀ l ∈ ss.map fun s => (s.line fmt).toList, ¬ Breaks l := by
    intro l hl
    obtain ⟨s, h, rfl⟩ := List.mem_map.mp hl
    exact (line_facts hf (hs s h)).1
  rw [e]
  refine ⟨no_return fun l hl => fun h => hb l hl (.inr h), ?_⟩
  by_cases h0 : ss = []
  · subst h0
    exact ⟨fun b => rfl, rfl⟩
  · rw [if_neg h0]
    have hne : (ss.map fun s => (s.line fmt).toList) ≠ [] := by simpa using h0
    exact ⟨split_lines (fun l hl h => hb l hl (.inl h)) hne, split_lines_end (fun l hl h => hb l hl (.inl h)) hne⟩

/-- The lines of a file of the notebooks. -/
theorem file_lines {fmt : ℝ → String} (hf : Jaqal.OneLine fmt) (n : ℕ) {ss : List Jaqal.Statement}
    (hs : ∀ s ∈ ss, s.name ∈ ["R", "Rx", "Ry", "Rz", "MS"]) :
    split '\n' (readText ("\n    from qscout.v1.std usepulses *\n    register q[" ++ toString n ++ "]\n    prepare_all\n    " ++
      Jaqal.text fmt ss ++ "\n    measure_all\n    ").toList) =
      ["".toList, "    from qscout.v1.std usepulses *".toList, "    register q[".toList ++ ((toString n).toList ++ "]".toList),
        "    prepare_all".toList, "    // JAQAL generated from UnitarySequence.get_jaqal()".toList] ++
      ((if ss = [] then [[]] else ss.map fun s => (s.line fmt).toList) ++ ["    measure_all".toList, "    ".toList]) := by
  obtain ⟨h1, h2, -⟩ := split_body hf hs
  have hn := no_break_nat n
  have e : ("\n    from qscout.v1.std usepulses *\n    register q[" ++ toString n ++ "]\n    prepare_all\n    " ++
      Jaqal.text fmt ss ++ "\n    measure_all\n    ").toList =
      "".toList ++ '\n' :: ("    from qscout.v1.std usepulses *".toList ++ '\n' ::
        (("    register q[".toList ++ ((toString n).toList ++ "]".toList)) ++ '\n' ::
        ("    prepare_all".toList ++ '\n' :: ("    // JAQAL generated from UnitarySequence.get_jaqal()".toList ++ '\n' ::
        (("\n".intercalate (ss.map (Jaqal.Statement.line fmt))).toList ++ '\n' :: ("    measure_all".toList ++ '\n' ::
          "    ".toList)))))) := by
    unfold Jaqal.text
    simp only [String.toList_append, List.append_assoc]
    rfl
  rw [e, readText_eq]
  · rw [split_sep (by decide), split_sep (by decide), split_sep, split_sep (by decide), split_sep (by decide), h2,
      split_sep (by decide), split_self (by decide)]
    · rfl
    · simp only [List.mem_append, not_or]
      exact ⟨by decide, fun h => hn (.inl h), by decide⟩
  · simp only [List.mem_append, List.mem_cons, not_or]
    exact ⟨by decide, by decide, by decide, by decide, ⟨by decide, fun h => hn (.inr h), by decide⟩, by decide, by decide,
      by decide, by decide, by decide, h1, by decide, by decide, by decide, by decide⟩

/-- The lines of what `get_jaqal` returns. -/
theorem text_lines {fmt : ℝ → String} (hf : Jaqal.OneLine fmt) {ss : List Jaqal.Statement}
    (hs : ∀ s ∈ ss, s.name ∈ ["R", "Rx", "Ry", "Rz", "MS"]) :
    split '\n' (readText (Jaqal.text fmt ss).toList) =
      "// JAQAL generated from UnitarySequence.get_jaqal()".toList ::
      (if ss = [] then [[]] else ss.map fun s => (s.line fmt).toList) := by
  obtain ⟨h1, -, h2⟩ := split_body hf hs
  have e : (Jaqal.text fmt ss).toList = "// JAQAL generated from UnitarySequence.get_jaqal()".toList ++ '\n' ::
      ("\n".intercalate (ss.map (Jaqal.Statement.line fmt))).toList := by
    have h : "// JAQAL generated from UnitarySequence.get_jaqal()\n" =
        "// JAQAL generated from UnitarySequence.get_jaqal()" ++ "\n" := by decide
    unfold Jaqal.text
    rw [h]
    simp only [String.toList_append, List.append_assoc]
    rfl
  rw [e, readText_eq]
  · rw [split_sep (by decide), h2]
  · simp only [List.mem_append, List.mem_cons, not_or]
    exact ⟨by decide, by decide, h1⟩

theorem two_count {fmt : ℝ → String} (hf : Jaqal.OneLine fmt) {n : ℕ} {ss : List Jaqal.Statement}
    (hs : ∀ s ∈ ss, s.name ∈ ["R", "Rx", "Ry", "Rz", "MS"]) {T : String}
    (hT : T = "\n    from qscout.v1.std usepulses *\n    register q[" ++ toString n ++ "]\n    prepare_all\n    " ++
      Jaqal.text fmt ss ++ "\n    measure_all\n    ") :
    get2QGateCount (readText T.toList) = Jaqal.msCount ss ∧ getLayerCount (readText T.toList) = Jaqal.msCount ss := by
  subst hT
  obtain ⟨h1, h2⟩ := count_lines hf hs
  unfold get2QGateCount getLayerCount
  rw [file_lines hf n hs]
  have hreg : "MS".toList.isPrefixOf ("    register q[".toList ++ ((toString n).toList ++ "]".toList)) = false := rfl
  by_cases h0 : ss = []
  · subst h0
    refine ⟨rfl, rfl⟩
  · rw [if_neg h0]
    constructor
    · show (List.filter _ (List.dropLast ((ss.map fun s => (s.line fmt).toList) ++ ["    measure_all".toList, "    ".toList]))).length = _
      rw [List.dropLast_append_of_ne_nil (by simp), List.filter_append, List.length_append, h1]
      rfl
    · rw [List.filter_append, List.filter_append, List.length_append, List.length_append, h2]
      show 0 + (_ + 0) = _
      omega

theorem bare_count {fmt : ℝ → String} (hf : Jaqal.OneLine fmt) {ss : List Jaqal.Statement}
    (hs : ∀ s ∈ ss, s.name ∈ ["R", "Rx", "Ry", "Rz", "MS"]) :
    get2QGateCount (readText (Jaqal.text fmt ss).toList) = Jaqal.msCount (ss.drop 4).dropLast ∧
      getLayerCount (readText (Jaqal.text fmt ss).toList) = Jaqal.msCount ss := by
  unfold get2QGateCount getLayerCount
  rw [text_lines hf hs]
  by_cases h0 : ss = []
  · subst h0
    exact ⟨rfl, rfl⟩
  · rw [if_neg h0]
    constructor
    · show (List.filter _ (List.dropLast (List.drop 4 (ss.map fun s => (s.line fmt).toList)))).length = _
      rw [← List.map_drop, ← List.map_dropLast]
      exact (count_lines hf fun s h => hs s (List.mem_of_mem_drop (List.dropLast_subset _ h))).1
    · rw [List.filter_cons_of_neg (by decide)]
      exact (count_lines hf hs).2

end Paper

end Stoq
