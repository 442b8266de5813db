import Verif.Proofs.PaperFiles
import Verif.Props.PaperFidelity

/-!
# C101: every circuit file of figures 8 and 9 is compared with its own data
-/

namespace Stoq

open Paper

/-- C101: of a list of at least 44 rows `discard_odd` keeps rows 0, 2, ..., 42 and all from 44 on. -/
theorem C101_discard {α : Type} {l : List α} (h : 44 ≤ l.length) :
    (discardOdd l).length = l.length - 22 ∧ (∀ j < 22, (discardOdd l)[j]? = l[2 * j]?) ∧
      ∀ j, 22 ≤ j → (discardOdd l)[j]? = l[j + 22]? := by
  have key := discardOdd_getElem? h
  refine ⟨?_, fun j hj => by rw [key, if_pos hj], fun j hj => by rw [key, if_neg (by omega)]⟩
  refine le_antisymm ?_ ?_
  · by_contra hlt
    have := key (l.length - 22)
    rw [if_neg (by omega), List.getElem?_eq_none (l := l) (by omega), List.getElem?_eq_none_iff] at this
    omega
  · by_contra hlt
    have := key (l.length - 23)
    rw [List.getElem?_eq_none (l := discardOdd l) (by omega)] at this
    split at this <;> rw [eq_comm, List.getElem?_eq_none_iff] at this <;> omega

/-- C101: what is kept of the circuits that were measured are the even numbers from 2 to 100. -/
theorem C101_even : discardOdd measured = (List.range 50).map fun j => 2 * (j + 1) := by
  refine List.ext_getElem? fun j => ?_
  rw [measured_getElem?]
  by_cases h : j < 50
  · rw [if_pos h, List.getElem?_map, List.getElem?_range h]
    rfl
  · rw [if_neg h, List.getElem?_eq_none (by simp; omega)]

/-- C101: file `n_1.txt` gets index `n // 2 - 1` when `n` is from 2 to 101, and otherwise the assertion fails. -/
theorem C101_index {kind : String} (hk : kind = "rav" ∨ kind = "xeb") (n : ℕ) :
    circuitIndex (kind.toList ++ ['/']) (directory kind ++ '/' :: fileName n) =
      if 2 ≤ n ∧ n ≤ 101 then .ok (n / 2 - 1) else .error .assertion := by
  unfold circuitIndex fileName
  rw [search_directory hk (digits_plain n)]
  simp only [parseInt_toString, bind, Except.bind]
  rw [Int.fdiv_eq_ediv_of_nonneg _ (by norm_num)]
  by_cases h : 2 ≤ n ∧ n ≤ 101
  · rw [if_pos h, if_pos (by omega)]
    exact congrArg Except.ok (by omega)
  · rw [if_neg h, if_neg (by omega)]

theorem Paper.files_records {kind : String} (hk : kind = "rav" ∨ kind = "xeb") {P : Type} {R D : ℕ} (shots : ℕ)
    {p : ℕ → List Char → P} {f : ℕ → Fin R → Fin D → ℝ} {pureOf : ℕ → List Char → Except FileError P} {rows : List (Fin R → Fin D → ℝ)}
    (hp : ∀ m t, 1 ≤ m → m ≤ 50 → pureOf (m - 1) t = .ok (p (2 * m) t))
    (hf : ∀ m, 1 ≤ m → m ≤ 50 → index rows (m - 1) = .ok (f (2 * m)))
    (text : ℕ → List Char) {ns : List ℕ} (h : ∀ n ∈ ns, ∃ m, 1 ≤ m ∧ m ≤ 50 ∧ n = 2 * m) :
    filesToList (kind.toList ++ ['/']) (directory kind) (ns.map fun n => (fileName n, text n)) pureOf shots rows =
      .ok (ns.map fun n => {
        circuitI := n / 2 - 1
        cycleDepth := get2QGateCount (readText (text n))
        pureProbs := p n (readText (text n))
        sampledProbs := fun r k => f n r k / shots }) := by
  unfold filesToList
  induction ns with
  | nil => rfl
  | cons n ns ih =>
    obtain ⟨m, h1, h2, rfl⟩ := h n (by simp)
    rw [List.map_cons, List.mapM_cons, ih fun n hn => h n (List.mem_cons_of_mem _ hn)]
    dsimp only
    rw [C101_index hk, if_pos (by omega), show 2 * m / 2 = m by omega]
    simp only [bind, Except.bind, pure, Except.pure, hp m _ h1 h2, hf m h1 h2, List.map_cons]
    rw [show 2 * m / 2 = m by omega]

/-- C101: the files of figure 9 are matched with the rows of their circuits: when the data contain for circuit `n` the ideal
result `p n` and the counts `f n`, then each file of an even number from 2 to 100, in whatever order the files are listed, is read
as the record of that circuit. -/
theorem C101_records {kind : String} (hk : kind = "rav" ∨ kind = "xeb") {P : Type} {R D : ℕ} (shots : ℕ) (p : ℕ → P)
    (f : ℕ → Fin R → Fin D → ℝ) (text : ℕ → List Char) {ns : List ℕ} (h : ∀ n ∈ ns, ∃ m, 1 ≤ m ∧ m ≤ 50 ∧ n = 2 * m) :
    filesToList (kind.toList ++ ['/']) (directory kind) (ns.map fun n => (fileName n, text n))
        (fun i _ => index (discardOdd (measured.map p)) i) shots (discardOdd (measured.map f)) =
      .ok (ns.map fun n => {
        circuitI := n / 2 - 1
        cycleDepth := get2QGateCount (readText (text n))
        pureProbs := p n
        sampledProbs := fun r k => f n r k / shots }) := by
  have hi : ∀ {α : Type} (g : ℕ → α) (m : ℕ), 1 ≤ m → m ≤ 50 → index (discardOdd (measured.map g)) (m - 1) = .ok (g (2 * m)) := by
    intro α g m h1 h2
    unfold index
    rw [discardOdd_map g (by decide), List.getElem?_map, measured_getElem?, if_pos (by omega), Option.map_some,
      show 2 * (m - 1 + 1) = 2 * m by omega]
  exact files_records hk shots (p := fun n _ => p n) (fun m _ h1 h2 => hi p m h1 h2) (hi f) text h

/-- C101: the same for figure 8, where the data contain only the even numbers, are probabilities already and are compared with a
simulation of the file. -/
theorem C101_records_simulated {kind : String} (hk : kind = "rav" ∨ kind = "xeb") {P : Type} {R D : ℕ} (simulate : List Char → P)
    (f : ℕ → Fin R → Fin D → ℝ) (text : ℕ → List Char) {ns : List ℕ} (h : ∀ n ∈ ns, ∃ m, 1 ≤ m ∧ m ≤ 50 ∧ n = 2 * m) :
    filesToList (kind.toList ++ ['/']) (directory kind) (ns.map fun n => (fileName n, text n))
        (fun _ t => .ok (simulate t)) 1 ((List.range 50).map fun j => f (2 * (j + 1))) =
      .ok (ns.map fun n => {
        circuitI := n / 2 - 1
        cycleDepth := get2QGateCount (readText (text n))
        pureProbs := simulate (readText (text n))
        sampledProbs := f n }) := by
  have key := files_records hk 1 (p := fun _ t => simulate t) (f := f) (pureOf := fun _ t => .ok (simulate t))
    (rows := (List.range 50).map fun j => f (2 * (j + 1))) (fun _ _ _ _ => rfl) (fun m h1 h2 => by
      unfold index
      rw [List.getElem?_map, List.getElem?_range (by omega), Option.map_some, show 2 * (m - 1 + 1) = 2 * m by omega]) text h
  rw [key]
  simp

/-- C101: the fifty files get every index from 0 to 49 once, so no row is used for two circuits. -/
theorem C101_once {kind : String} (hk : kind = "rav" ∨ kind = "xeb") {ns : List ℕ}
    (h : ns.Perm ((List.range 50).map fun j => 2 * (j + 1))) :
    ∃ is : List ℕ, ns.mapM (fun n => circuitIndex (kind.toList ++ ['/']) (directory kind ++ '/' :: fileName n)) = .ok is ∧
      is.Perm (List.range 50) := by
  have key : ∀ ms : List ℕ, (∀ n ∈ ms, 2 ≤ n ∧ n ≤ 101) →
      ms.mapM (fun n => circuitIndex (kind.toList ++ ['/']) (directory kind ++ '/' :: fileName n)) =
        Except.ok (ms.map fun n => n / 2 - 1) := by
    intro ms hms
    induction ms with
    | nil => rfl
    | cons n ms ih =>
      rw [List.mapM_cons, ih fun n hn => hms n (List.mem_cons_of_mem _ hn), C101_index hk, if_pos (hms n (by simp))]
      rfl
  refine ⟨_, key ns fun n hn => ?_, ?_⟩
  · obtain ⟨j, hj, rfl⟩ := List.mem_map.mp (h.mem_iff.mp hn)
    have := List.mem_range.mp hj
    omega
  · refine (h.map _).trans (List.Perm.of_eq ?_)
    rw [List.map_map]
    conv_rhs => rw [← List.map_id (List.range 50)]
    refine List.map_congr_left fun j _ => ?_
    dsimp only [Function.comp, id]
    omega

/-- C101: a file with an odd number from 3 to 101 is not refused: it would be compared with the data of the circuit before it. -/
theorem C101_odd {kind : String} (hk : kind = "rav" ∨ kind = "xeb") {m : ℕ} (h1 : 1 ≤ m) (h2 : m ≤ 50) :
    circuitIndex (kind.toList ++ ['/']) (directory kind ++ '/' :: fileName (2 * m + 1)) = .ok (m - 1) ∧
    circuitIndex (kind.toList ++ ['/']) (directory kind ++ '/' :: fileName (2 * m)) = .ok (m - 1) := by
  constructor
  · rw [C101_index hk, if_pos (by omega), show (2 * m + 1) / 2 = m by omega]
  · rw [C101_index hk, if_pos (by omega), show 2 * m / 2 = m by omega]

/-- C101: a file whose name before `_1.txt` is empty or contains a letter is refused. -/
theorem C101_name {kind : String} (hk : kind = "rav" ∨ kind = "xeb") {g : List Char} (hg : ∀ c ∈ g, c ≠ '\n' ∧ c ≠ '_')
    (h : g = [] ∨ ∃ c ∈ g, c.isAlpha) :
    circuitIndex (kind.toList ++ ['/']) (directory kind ++ '/' :: (g ++ "_1.txt".toList)) = .error .notNumber := by
  unfold circuitIndex
  rw [search_directory hk hg]
  have : parseInt g = .error .notNumber := by
    unfold parseInt
    rw [if_neg]
    rintro ⟨h1, h2⟩
    rcases h with h | ⟨c, hc, hd⟩
    · exact h1 h
    · have hc' := List.all_eq_true.mp h2 c hc
      simp only [Char.isDigit, Char.isAlpha, Char.isUpper, Char.isLower, Bool.and_eq_true, Bool.or_eq_true, decide_eq_true_eq,
        ge_iff_le, UInt32.le_iff_toNat_le] at hc' hd
      have e1 : '9'.val.toNat = 57 := rfl
      have e2 : 'A'.val.toNat = 65 := rfl
      have e3 : 'a'.val.toNat = 97 := rfl
      omega
  simp only [this, bind, Except.bind]

/-- C101: such as a copy. -/
example : circuitIndex "rav/".toList (directory "rav" ++ '/' :: ("12 copy".toList ++ "_1.txt".toList)) = .error .notNumber :=
  C101_name (.inl rfl) (g := "12 copy".toList) (by decide) (.inr ⟨'c', by decide, by decide⟩)

/-- C101: a file whose path does not contain the pattern stops the notebook. -/
theorem C101_other {P : Type} {R D : ℕ} {marker dir : List Char} {files : List (List Char × List Char)}
    {pureOf : ℕ → List Char → Except FileError P} {shots : ℕ} {rows : List (Fin R → Fin D → ℝ)} {f c : List Char}
    (hf : (f, c) ∈ files) (h : searchGroup marker (dir ++ '/' :: f) = none) :
    ∀ rs, filesToList marker dir files pureOf shots rows ≠ .ok rs := by
  unfold filesToList
  induction files with
  | nil => simp at hf
  | cons x files ih =>
    intro rs hrs
    rw [List.mapM_cons] at hrs
    rcases List.mem_cons.mp hf with rfl | hf
    · have hc : circuitIndex marker (dir ++ '/' :: f) = .error .noMatch := by
        unfold circuitIndex
        rw [h]
      dsimp only at hrs
      rw [hc] at hrs
      cases hrs
    · rcases hx : (do
        let circuitI ← circuitIndex marker (dir ++ '/' :: x.1)
        let pureProbs ← pureOf circuitI (readText x.2)
        let row ← index rows circuitI
        return ({ circuitI := circuitI, cycleDepth := get2QGateCount (readText x.2), pureProbs := pureProbs,
                  sampledProbs := fun r k => row r k / shots } : Record P R D)) with e | a
      · dsimp only at hrs
        rw [hx] at hrs
        cases hrs
      · dsimp only at hrs
        rw [hx] at hrs
        rcases hr : (files.mapM fun (x : List Char × List Char) => (do
            let circuitI ← circuitIndex marker (dir ++ '/' :: x.1)
            let pureProbs ← pureOf circuitI (readText x.2)
            let row ← index rows circuitI
            return ({ circuitI := circuitI, cycleDepth := get2QGateCount (readText x.2), pureProbs := pureProbs,
                      sampledProbs := fun r k => row r k / shots } : Record P R D))) with e | as
        · have hrs' := hrs
          rw [show (Except.ok a : Except FileError (Record P R D)) = pure a from rfl, pure_bind] at hrs'
          rw [hr] at hrs'
          cases hrs'
        · exact ih hf as hr

theorem Paper.mapM_perm {α β ε : Type} {g : α → Except ε β} {l l' : List α} (h : l.Perm l') :
    ∀ {bs : List β}, l.mapM g = .ok bs → ∃ bs', l'.mapM g = .ok bs' ∧ bs.Perm bs' := by
  have hc : ∀ (a : α) (l : List α) (bs : List β), (a :: l).mapM g = .ok bs ↔ ∃ b t, g a = .ok b ∧ l.mapM g = .ok t ∧ bs = b :: t := by
    intro a l bs
    rw [List.mapM_cons]
    cases g a with
    | error e => simp [bind, Except.bind]
    | ok b =>
      cases l.mapM g with
      | error e => simp [bind, Except.bind]
      | ok t => simp [bind, Except.bind, pure, Except.pure, eq_comm]
  induction h with
  | nil => exact fun h => ⟨_, h, .refl _⟩
  | cons a _ ih =>
    intro bs hbs
    obtain ⟨b, t, h1, h2, rfl⟩ := (hc _ _ _).mp hbs
    obtain ⟨t', h3, h4⟩ := ih h2
    exact ⟨b :: t', (hc _ _ _).mpr ⟨b, t', h1, h3, rfl⟩, h4.cons b⟩
  | swap a a' l =>
    intro bs hbs
    obtain ⟨b, t, h1, h2, rfl⟩ := (hc _ _ _).mp hbs
    obtain ⟨b', t', h3, h4, rfl⟩ := (hc _ _ _).mp h2
    exact ⟨b' :: b :: t', (hc _ _ _).mpr ⟨b', b :: t', h3, (hc _ _ _).mpr ⟨b, t', h1, h4, rfl⟩, rfl⟩, .swap _ _ _⟩
  | trans _ _ ih1 ih2 =>
    intro bs hbs
    obtain ⟨b', h1, h2⟩ := ih1 hbs
    obtain ⟨b'', h3, h4⟩ := ih2 h1
    exact ⟨b'', h3, h2.trans h4⟩

/-- C101: `os.listdir` may return the files in any order: the records are the same up to their order, and so are the points
that each run contributes to the plot. -/
theorem C101_order {P : Type} {R D : ℕ} {marker dir : List Char} {files files' : List (List Char × List Char)} (h : files.Perm files')
    {pureOf : ℕ → List Char → Except FileError P} {shots : ℕ} {rows : List (Fin R → Fin D → ℝ)} {rs : List (Record P R D)}
    (hrs : filesToList marker dir files pureOf shots rows = .ok rs) (ignored : List ℕ) (rate : P → (Fin D → ℝ) → ℝ) :
    ∃ rs', filesToList marker dir files' pureOf shots rows = .ok rs' ∧ rs.Perm rs' ∧
      List.Forall₂ (fun ys ys' => ((rs.map (·.cycleDepth)).zip ys).Perm ((rs'.map (·.cycleDepth)).zip ys'))
        (allSuccessRates ignored rate rs) (allSuccessRates ignored rate rs') := by
  obtain ⟨rs', h1, h2⟩ := mapM_perm h hrs
  refine ⟨rs', h1, h2, ?_⟩
  unfold allSuccessRates
  rw [List.forall₂_map_left_iff, List.forall₂_map_right_iff]
  refine List.forall₂_same.mpr fun r _ => ?_
  rw [List.zip_map', List.zip_map']
  exact h2.map _

/-- C101: the runs that are used: without 3 of 10 for 50 and 100 shots and 2 of 10 for 5000 shots with RAV, without 3 of 10 for 500
and 2 of 10 for 1000 shots with XEB; each of them gives the list of the rates of its records. -/
theorem C101_runs {P : Type} {D : ℕ} (shots : ℕ) (rate : P → (Fin D → ℝ) → ℝ) (records : List (Record P 10 D)) :
    allSuccessRates (ravIgnored shots) rate records =
      ((ravRuns shots).map fun r => records.map fun x => rate x.pureProbs (x.sampledProbs r)) ∧
    allSuccessRates (xebIgnored shots) rate records =
      ((xebRuns shots).map fun r => records.map fun x => rate x.pureProbs (x.sampledProbs r)) := by
  unfold allSuccessRates
  exact ⟨congrArg (List.map _) (ravRuns_eq shots), congrArg (List.map _) (xebRuns_eq shots)⟩

/-- C101: figure 9(a) as a whole: when run `r` of circuit `n` has the frequencies of an output mixed with the uniform
distribution by `e n r`, the rates of the runs that are not ignored are `1 - e n r`, for each file at its layer count. -/
theorem C101_rav {R shots : ℕ} (hs : 0 < shots) (ignored : List ℕ) (p : ℕ → Fin 4 → ℝ) (e : ℕ → Fin R → ℝ) (text : ℕ → List Char)
    {ns : List ℕ} (h : ∀ n ∈ ns, ∃ m, 1 ≤ m ∧ m ≤ 50 ∧ n = 2 * m) (hp : ∀ n ∈ ns, p n 0 ≠ 1 / 4) :
    ∃ rs, filesToList "rav/".toList (directory "rav") (ns.map fun n => (fileName n, text n))
        (fun i _ => index (discardOdd (measured.map fun n => p n 0)) i) shots
        (discardOdd (measured.map fun n r k => shots * outputProbs (e n r) (p n) k)) = .ok rs ∧
      rs.map (·.cycleDepth) = (ns.map fun n => get2QGateCount (readText (text n))) ∧
      allSuccessRates ignored ravRate rs =
        ((List.finRange R).filter fun r => decide (r.val ∉ ignored)).map fun r => ns.map fun n => 1 - e n r := by
  have key := C101_records (kind := "rav") (Or.inl rfl) shots (fun n => p n 0)
    (fun n (r : Fin R) k => shots * outputProbs (e n r) (p n) k) text h
  refine ⟨_, key, ?_, ?_⟩
  · rw [List.map_map]
    rfl
  · unfold allSuccessRates
    refine List.map_congr_left fun r _ => ?_
    rw [List.map_map]
    refine List.map_congr_left fun n hn => ?_
    have hs' : (shots : ℝ) ≠ 0 := by exact_mod_cast hs.ne'
    dsimp only [Function.comp, ravRate]
    rw [mul_div_cancel_left₀ _ hs']
    exact C65_rav (D := 4) 0 (by exact_mod_cast hp n hn) (e n r)

/-- C101: the same for figure 9(b). -/
theorem C101_xeb {R shots : ℕ} (hs : 0 < shots) (ignored : List ℕ) (p : ℕ → Fin 4 → ℝ) (e : ℕ → Fin R → ℝ) (text : ℕ → List Char)
    {ns : List ℕ} (h : ∀ n ∈ ns, ∃ m, 1 ≤ m ∧ m ≤ 50 ∧ n = 2 * m) (hp : ∀ n ∈ ns, IsDistribution (p n) ∧ ¬ IsUniform (p n)) :
    ∃ rs, filesToList "xeb/".toList (directory "xeb") (ns.map fun n => (fileName n, text n))
        (fun i _ => index (discardOdd (measured.map p)) i) shots
        (discardOdd (measured.map fun n r k => shots * outputProbs (e n r) (p n) k)) = .ok rs ∧
      rs.map (·.cycleDepth) = (ns.map fun n => get2QGateCount (readText (text n))) ∧
      allSuccessRates ignored xebRate rs =
        ((List.finRange R).filter fun r => decide (r.val ∉ ignored)).map fun r => ns.map fun n => 1 - e n r := by
  have key := C101_records (kind := "xeb") (Or.inr rfl) shots p
    (fun n (r : Fin R) k => shots * outputProbs (e n r) (p n) k) text h
  refine ⟨_, key, ?_, ?_⟩
  · rw [List.map_map]
    rfl
  · unfold allSuccessRates
    refine List.map_congr_left fun r _ => ?_
    rw [List.map_map]
    refine List.map_congr_left fun n hn => ?_
    have hs' : (shots : ℝ) ≠ 0 := by exact_mod_cast hs.ne'
    dsimp only [Function.comp, xebRate]
    simp only [mul_div_cancel_left₀ _ hs']
    exact C65_xeb (hp n hn).1 (hp n hn).2 (e n r)

/-! ## Examples -/

/-- The number of rows in the data of `ibmq_manila`, and three of them. -/
example : measured.length = 72 ∧ measured[43]? = some 45 ∧ measured[44]? = some 46 ∧ measured[71]? = some 100 := by decide

/-- Row 22 of what is kept is row 44 of the data, circuit 46. -/
example : (discardOdd measured).length = 50 ∧ (discardOdd measured)[22]? = some 46 :=
  ⟨(C101_discard (l := measured) (by decide)).1, by rw [C101_even]; rfl⟩

/-- C101: file `46_1.txt` has index 22, and the assertion refuses `0_1.txt`, `1_1.txt` and `102_1.txt`. -/
example : circuitIndex "rav/".toList "data/sequences/rav/46_1.txt".toList = .ok 22 ∧
    circuitIndex "rav/".toList "data/sequences/rav/1_1.txt".toList = .error .assertion ∧
    circuitIndex "rav/".toList "data/sequences/rav/102_1.txt".toList = .error .assertion ∧
    circuitIndex "rav/".toList "data/sequences/rav/README.md".toList = .error .noMatch ∧
    circuitIndex "rav/".toList "data/sequences/rav/_1.txt".toList = .error .notNumber := by
  decide

/-- C101: the fifty files in the order of their numbers. -/
example : ∃ is : List ℕ, ((List.range 50).map fun j => 2 * (j + 1)).mapM
    (fun n => circuitIndex "xeb/".toList (directory "xeb" ++ '/' :: fileName n)) = .ok is ∧ is.Perm (List.range 50) :=
  C101_once (kind := "xeb") (Or.inr rfl) (List.Perm.refl _)

/-- C101: two files, `100_1.txt` listed first, with the deterministic output 0 and an error of a tenth in each of 10 runs of 50
shots. -/
example : ∃ rs : List (Record ℝ 10 4), filesToList "rav/".toList (directory "rav") ([100, 10].map fun n => (fileName n, []))
      (fun i _ => index (discardOdd (measured.map fun _ => (1 : ℝ))) i) 50
      (discardOdd (measured.map fun _ _ k => 50 * outputProbs (1 / 10) ![1, 0, 0, 0] k)) = .ok rs ∧
    allSuccessRates (ravIgnored 50) ravRate rs = List.replicate 7 [9 / 10, 9 / 10] := by
  obtain ⟨rs, h1, -, h3⟩ := C101_rav (R := 10) (shots := 50) (by norm_num) (ravIgnored 50) (fun _ => ![1, 0, 0, 0])
    (fun _ _ => 1 / 10) (fun _ => []) (ns := [100, 10])
    (fun n hn => ⟨n / 2, by simp at hn; omega⟩) (fun n _ => by norm_num)
  refine ⟨rs, by simpa using h1, ?_⟩
  rw [h3, show ((List.finRange 10).filter fun r => decide (r.val ∉ ravIgnored 50)) = [3, 4, 5, 6, 7, 8, 9] from by decide]
  norm_num [List.replicate]

end Stoq
