import Verif.Proofs.Random
import Verif.Proofs.SequenceRead

/-! # The random changes made by the compiler, on the heap -/

namespace Stoq

open World Compiler

/-! ## Choosing the action -/

theorem actionProbabilities_eq (p : ℝ) :
    actionProbabilities p = [p / 2, p / 2, (1 - p) / 2, (1 - p) / 2] := by
  have e : actionProbabilities p =
      [p / ((2 : ℕ) : ℝ), p / ((2 : ℕ) : ℝ), (1 - p) / ((2 : ℕ) : ℝ), (1 - p) / ((2 : ℕ) : ℝ)] := rfl
  rw [e]; norm_num

theorem actionProbabilities_valid_iff (p : ℝ) :
    Rng.ValidP Action.all.length (actionProbabilities p) ↔ 0 ≤ p ∧ p ≤ 1 := by
  rw [actionProbabilities_eq]
  constructor
  · intro h
    have h1 := h.nonneg (p / 2) (by simp)
    have h2 := h.nonneg ((1 - p) / 2) (by simp)
    constructor <;> linarith
  · rintro ⟨h1, h2⟩
    refine ⟨by decide, rfl, ?_, ?_⟩
    · intro x hx
      simp only [List.mem_cons, List.not_mem_nil, or_false] at hx
      rcases hx with rfl | rfl | rfl | rfl <;> linarith
    · simp only [List.sum_cons, List.sum_nil]
      rw [show p / 2 + (p / 2 + ((1 - p) / 2 + ((1 - p) / 2 + 0))) - 1 = 0 by ring]
      norm_num

/-- The action selected by the draw `u`. -/
noncomputable def pick (p u : ℝ) : Action :=
  if u < p / 2 then .appendFirst else if u < p then .appendLast
  else if u < p + (1 - p) / 2 then .removeFirst else .removeLast

theorem chooseAction_eq {C : Compiler} (h0 : 0 ≤ C.appendProbability) (h1 : C.appendProbability ≤ 1)
    (w : World) : chooseAction C w = (.ok (pick C.appendProbability (w.rng.unif w.rng.upos)),
      { w with rng := { w.rng with upos := w.rng.upos + 1 } }) := by
  have hv := (actionProbabilities_valid_iff C.appendProbability).mpr ⟨h0, h1⟩
  have e := Rng.choiceP_eq hv w.rng
  obtain ⟨hi, h2, h3⟩ := Rng.search_spec hv (w.rng.unif w.rng.upos) rfl
  generalize Rng.searchsortedRight ((Rng.cumsum (actionProbabilities C.appendProbability)).map
    (· / (actionProbabilities C.appendProbability).sum)) ((w.rng.unif w.rng.upos : Set.Ico (0 : ℝ) 1) : ℝ) = i
    at e hi h2 h3
  have e' : withRng (Rng.choiceP Action.all.length (actionProbabilities C.appendProbability)) w =
      (.ok i, { w with rng := { w.rng with upos := w.rng.upos + 1 } }) := by
    unfold withRng PyM.zoom
    rw [e]
  unfold chooseAction
  rw [PyM.bind_of_ok e']
  have hu := (w.rng.unif w.rng.upos).2
  rw [actionProbabilities_eq] at h2 h3
  generalize C.appendProbability = p at h0 h1 h2 h3 ⊢
  generalize hu' : ((w.rng.unif w.rng.upos : Set.Ico (0 : ℝ) 1) : ℝ) = u at hu h2 h3 ⊢
  have hsum : [p / 2, p / 2, (1 - p) / 2, (1 - p) / 2].sum = 1 := by
    simp only [List.sum_cons, List.sum_nil]; ring
  rw [hsum, mul_one] at h2 h3
  have hlen : i < 4 := hi
  have : i = 0 ∨ i = 1 ∨ i = 2 ∨ i = 3 := by omega
  unfold pick
  rcases this with rfl | rfl | rfl | rfl
  · simp only [List.take_succ_cons, List.take_zero, List.sum_cons, List.sum_nil] at h2 h3
    rw [if_pos (by linarith)]; rfl
  · simp only [List.take_succ_cons, List.take_zero, List.sum_cons, List.sum_nil] at h2 h3
    rw [if_neg (by linarith), if_pos (by linarith)]; rfl
  · simp only [List.take_succ_cons, List.take_zero, List.sum_cons, List.sum_nil] at h2 h3
    rw [if_neg (by linarith), if_neg (by linarith), if_pos (by linarith)]; rfl
  · simp only [List.take_succ_cons, List.take_zero, List.sum_cons, List.sum_nil] at h2 h3
    rw [if_neg (by linarith), if_neg (by linarith), if_neg (by linarith)]; rfl

theorem chooseAction_error {C : Compiler} (h : ¬ (0 ≤ C.appendProbability ∧ C.appendProbability ≤ 1))
    (w : World) : chooseAction C w = (.error .valueError, w) := by
  have hv : ¬ Rng.ValidP Action.all.length (actionProbabilities C.appendProbability) :=
    fun h' => h ((actionProbabilities_valid_iff _).mp h')
  have e' : withRng (Rng.choiceP Action.all.length (actionProbabilities C.appendProbability)) w =
      (.error .valueError, w) := by
    unfold withRng PyM.zoom
    rw [Rng.choiceP_invalid hv]
  unfold chooseAction
  rw [PyM.bind_of_error e']

/-! ## Creating entry objects -/

/-- `mk` allocates entry objects whose values are what `fresh` produces from the same random numbers; all new
values satisfy `G`. -/
structure MkPost (G : EntryVal → Prop) (fresh : PyM Rng (List EntryVal)) (w : World)
    (res : Except PyErr (List ℕ)) (w' : World) : Prop where
  eq : ∃ l, w' = { w with entries := w.entries ++ l, rng := (fresh w.rng).2 } ∧
    ∀ x ∈ l, x.toVal.WF ∧ x.cache = [] ∧ G x.toVal
  res : match (fresh w.rng).1 with
    | .error e => res = .error e
    | .ok vs => ∃ rs, res = .ok rs ∧ (∀ r ∈ rs, r < w'.entries.length) ∧ valsOf w'.entries rs = vs ∧
        ∀ v ∈ vs, G v

def MkOk (G : EntryVal → Prop) (mk : PyM World (List ℕ)) (fresh : PyM Rng (List EntryVal)) : Prop :=
  ∀ w, Wp mk (MkPost G fresh w) w

theorem createRandomSequenceEntry_wp {τ : Arith} {D : ℕ} {prims : List Primitive} {probs : Option (List ℝ)}
    (w : World) :
    (∀ e r, createRandomEntryVal τ D prims probs w.rng = (.error e, r) →
      createRandomSequenceEntry τ D prims probs w = (.error e, { w with rng := r })) ∧
    (∀ v r, createRandomEntryVal τ D prims probs w.rng = (.ok v, r) →
      createRandomSequenceEntry τ D prims probs w =
        (.ok w.entries.length, { w with rng := r, entries := w.entries ++ [⟨v, []⟩] })) := by
  unfold createRandomSequenceEntry
  constructor
  · intro e r h
    have : withRng (createRandomEntryVal τ D prims probs) w = (.error e, { w with rng := r }) := by
      unfold withRng PyM.zoom; rw [h]
    rw [PyM.bind_of_error this]
  · intro v r h
    have : withRng (createRandomEntryVal τ D prims probs) w = (.ok v, { w with rng := r }) := by
      unfold withRng PyM.zoom; rw [h]
    rw [PyM.bind_of_ok this]; rfl

theorem mk_one {τ : Arith} {D : ℕ} {prims : List Primitive} {probs : Option (List ℝ)} {G : EntryVal → Prop}
    (hG : ∀ r v r', createRandomEntryVal τ D prims probs r = (.ok v, r') → G v) :
    MkOk G (do let e ← createRandomSequenceEntry τ D prims probs; return [e])
      (Metropolis.one (createRandomEntryVal τ D prims probs)) := by
  intro w
  obtain ⟨h1, h2⟩ := createRandomSequenceEntry_wp (τ := τ) (D := D) (prims := prims) (probs := probs) w
  rcases hc : createRandomEntryVal τ D prims probs w.rng with ⟨e | v, r⟩
  · have hf : Metropolis.one (createRandomEntryVal τ D prims probs) w.rng = (.error e, r) := by
      unfold Metropolis.one; rw [PyM.bind_of_error hc]
    refine Wp.bind_error (h1 e r hc) ⟨⟨[], by rw [hf]; simp, by simp⟩, by rw [hf]⟩
  · have hf : Metropolis.one (createRandomEntryVal τ D prims probs) w.rng = (.ok [v], r) := by
      unfold Metropolis.one; rw [PyM.bind_of_ok hc]; rfl
    have hv := hG _ _ _ hc
    refine Wp.bind_ok (h2 v r hc) (Wp.pure ⟨⟨[⟨v, []⟩], by rw [hf], ?_⟩, ?_⟩)
    · intro x hx
      rw [List.mem_singleton] at hx; subst hx
      exact ⟨(createRandomEntryVal_ok hc).1, rfl, hv⟩
    · rw [hf]
      refine ⟨_, rfl, by simp, ?_, by simpa using hv⟩
      rw [valsOf_cons (o := ⟨v, []⟩) (by simp)]; rfl

theorem mk_many {τ : Arith} {D : ℕ} {p : Primitive} {G : EntryVal → Prop}
    (hG : ∀ r v r', createRandomEntryVal τ D [p] none r = (.ok v, r') → G v) (k : ℕ) :
    MkOk G (createMany τ D p k) (Metropolis.many (createRandomEntryVal τ D [p] none) k) := by
  induction k with
  | zero =>
    intro w
    exact Wp.pure ⟨⟨[], by simp [Metropolis.many], by simp⟩, ⟨[], rfl, by simp, rfl, by simp⟩⟩
  | succ k ih =>
    intro w
    unfold createMany
    obtain ⟨h1, h2⟩ := createRandomSequenceEntry_wp (τ := τ) (D := D) (prims := [p]) (probs := none) w
    rcases hc : createRandomEntryVal τ D [p] none w.rng with ⟨e | v, r⟩
    · have hf : Metropolis.many (createRandomEntryVal τ D [p] none) (k + 1) w.rng = (.error e, r) := by
        unfold Metropolis.many; rw [PyM.bind_of_error hc]
      exact Wp.bind_error (h1 e r hc) ⟨⟨[], by rw [hf]; simp, by simp⟩, by rw [hf]⟩
    · have hv := hG _ _ _ hc
      refine Wp.bind_ok (h2 v r hc) (Wp.bind ((ih _).mono ?_))
      rintro res w2 ⟨⟨l, rfl, hl⟩, hres⟩
      have hx : (⟨v, []⟩ : EntryObj).toVal.WF ∧ (⟨v, []⟩ : EntryObj).cache = [] ∧ G (⟨v, []⟩ : EntryObj).toVal :=
        ⟨(createRandomEntryVal_ok hc).1, rfl, hv⟩
      simp only at hres ⊢
      rcases hm : Metropolis.many (createRandomEntryVal τ D [p] none) k r with ⟨e | vs, r2⟩
      · have hf : Metropolis.many (createRandomEntryVal τ D [p] none) (k + 1) w.rng = (.error e, r2) := by
          unfold Metropolis.many; rw [PyM.bind_of_ok hc, PyM.bind_of_error hm]
        rw [hm] at hres
        simp only at hres
        subst hres
        refine ⟨⟨⟨v, []⟩ :: l, by rw [hf]; simp, ?_⟩, by rw [hf]⟩
        intro x hx'
        rcases List.mem_cons.mp hx' with rfl | hx'
        · exact hx
        · exact hl x hx'
      · have hf : Metropolis.many (createRandomEntryVal τ D [p] none) (k + 1) w.rng = (.ok (v :: vs), r2) := by
          unfold Metropolis.many; rw [PyM.bind_of_ok hc, PyM.bind_of_ok hm]; rfl
        rw [hm] at hres
        obtain ⟨rs, rfl, hr1, hr2, hr3⟩ := hres
        refine Wp.pure ⟨⟨⟨v, []⟩ :: l, by rw [hf]; simp, ?_⟩, ?_⟩
        · intro x hx'
          rcases List.mem_cons.mp hx' with rfl | hx'
          · exact hx
          · exact hl x hx'
        · rw [hf]
          refine ⟨_, rfl, ?_, ?_, ?_⟩
          · intro x hx'
            rcases List.mem_cons.mp hx' with rfl | hx'
            · simp
            · exact hr1 x hx'
          · rw [valsOf_cons (o := ⟨v, []⟩) (by simp), hr2]
          · intro x hx'
            rcases List.mem_cons.mp hx' with rfl | hx'
            · exact hv
            · exact hr3 x hx'

theorem mk_block {τ : Arith} {D : ℕ} {counts : List (Primitive × ℤ)} {G : EntryVal → Prop}
    (hG : ∀ pc ∈ counts, ∀ r v r', createRandomEntryVal τ D [pc.1] none r = (.ok v, r') → G v) :
    MkOk G (createLayerEntries τ D counts)
      (Metropolis.block (fun p => createRandomEntryVal τ D [p] none) counts) := by
  induction counts with
  | nil =>
    intro w
    exact Wp.pure ⟨⟨[], by simp [Metropolis.block], by simp⟩, ⟨[], rfl, by simp, rfl, by simp⟩⟩
  | cons pc rest ih =>
    obtain ⟨p, count⟩ := pc
    intro w
    unfold createLayerEntries
    refine Wp.bind ((mk_many (hG (p, count) (by simp)) count.toNat w).mono ?_)
    rintro res w1 ⟨⟨l1, rfl, hl1⟩, hres1⟩
    rcases hm : Metropolis.many (createRandomEntryVal τ D [p] none) count.toNat w.rng with ⟨e | vs, r1⟩
    · have hf : Metropolis.block (fun p => createRandomEntryVal τ D [p] none) ((p, count) :: rest) w.rng =
          (.error e, r1) := by
        unfold Metropolis.block; rw [PyM.bind_of_error hm]
      rw [hm] at hres1
      simp only at hres1
      subst hres1
      exact ⟨⟨l1, by rw [hf], hl1⟩, by rw [hf]⟩
    · rw [hm] at hres1
      obtain ⟨rs1, rfl, hr1, hr2, hr3⟩ := hres1
      simp only
      refine Wp.bind ((ih (fun pc hpc => hG pc (by simp [hpc])) _).mono ?_)
      rintro res w2 ⟨⟨l2, rfl, hl2⟩, hres2⟩
      have hl : ∀ x ∈ l1 ++ l2, x.toVal.WF ∧ x.cache = [] ∧ G x.toVal := by
        intro x hx
        rcases List.mem_append.mp hx with hx | hx
        · exact hl1 x hx
        · exact hl2 x hx
      simp only at hres2 ⊢
      rcases hb : Metropolis.block (fun p => createRandomEntryVal τ D [p] none) rest r1 with ⟨e | vs2, r2⟩
      · have hf : Metropolis.block (fun p => createRandomEntryVal τ D [p] none) ((p, count) :: rest) w.rng =
            (.error e, r2) := by
          unfold Metropolis.block; rw [PyM.bind_of_ok hm, PyM.bind_of_error hb]
        rw [hb] at hres2
        simp only at hres2
        subst hres2
        exact ⟨⟨l1 ++ l2, by rw [hf]; simp, hl⟩, by rw [hf]⟩
      · have hf : Metropolis.block (fun p => createRandomEntryVal τ D [p] none) ((p, count) :: rest) w.rng =
            (.ok (vs ++ vs2), r2) := by
          unfold Metropolis.block; rw [PyM.bind_of_ok hm, PyM.bind_of_ok hb]; rfl
        rw [hb] at hres2
        obtain ⟨rs2, rfl, hs1, hs2, hs3⟩ := hres2
        refine Wp.pure ⟨⟨l1 ++ l2, by rw [hf]; simp, hl⟩, ?_⟩
        rw [hf]
        refine ⟨_, rfl, ?_, ?_, ?_⟩
        · intro x hx
          rcases List.mem_append.mp hx with hx | hx
          · have := hr1 x hx; simp at this ⊢; omega
          · exact hs1 x hx
        · rw [valsOf_append, hs2, valsOf_grow hr1 (.append _ _), hr2]
        · intro x hx
          rcases List.mem_append.mp hx with hx | hx
          · exact hr3 x hx
          · exact hs3 x hx

/-- The value of a reference, with a default outside the heap. -/
noncomputable def valAt (es : List EntryObj) (r : ℕ) : EntryVal :=
  (es[r]?.map EntryObj.toVal).getD ⟨Unitary.plain (Arr.identity 1), []⟩

theorem valsOf_eq_map {es : List EntryObj} {rs : List ℕ} (h : ∀ r ∈ rs, r < es.length) :
    valsOf es rs = rs.map (valAt es) := by
  induction rs with
  | nil => rfl
  | cons r rs ih =>
    have hr := List.getElem?_eq_getElem (h r (by simp))
    rw [valsOf_cons hr, ih fun x hx => h x (by simp [hx]), List.map_cons]
    congr 1
    simp [valAt, hr]

theorem mk_layer {τ : Arith} {D : ℕ} {counts : List (Primitive × ℤ)} {G : EntryVal → Prop}
    (hG : ∀ pc ∈ counts, ∀ r v r', createRandomEntryVal τ D [pc.1] none r = (.ok v, r') → G v) :
    MkOk G (createRandomLayer τ D counts)
      (Metropolis.layer (fun p => createRandomEntryVal τ D [p] none) counts) := by
  intro w
  unfold createRandomLayer
  refine Wp.bind ((mk_block hG w).mono ?_)
  rintro res w1 ⟨⟨l1, rfl, hl1⟩, hres1⟩
  rcases hb : Metropolis.block (fun p => createRandomEntryVal τ D [p] none) counts w.rng with ⟨e | vs, r1⟩
  · have hf : Metropolis.layer (fun p => createRandomEntryVal τ D [p] none) counts w.rng = (.error e, r1) := by
      unfold Metropolis.layer; rw [PyM.bind_of_error hb]
    rw [hb] at hres1
    simp only at hres1
    subst hres1
    exact ⟨⟨l1, by rw [hf], hl1⟩, by rw [hf]⟩
  · rw [hb] at hres1
    obtain ⟨rs, rfl, hr1, hr2, hr3⟩ := hres1
    simp only at hr1 hr2 ⊢
    have hmap := valsOf_eq_map hr1
    have hsh := Rng.shuffle_map (valAt (w.entries ++ l1)) rs r1
    obtain ⟨rs', r2, hs1, hs2⟩ := Rng.shuffle_perm rs r1
    rw [hs1, ← hmap, hr2] at hsh
    have hf : Metropolis.layer (fun p => createRandomEntryVal τ D [p] none) counts w.rng =
        (.ok (rs'.map (valAt (w.entries ++ l1))), r2) := by
      unfold Metropolis.layer; rw [PyM.bind_of_ok hb, hsh]; rfl
    have hr1' : ∀ r ∈ rs', r < (w.entries ++ l1).length := fun r hr => hr1 r (hs2.subset hr)
    refine Wp.of_eq (r := .ok rs') (w' := { w with entries := w.entries ++ l1, rng := r2 }) ?_
      ⟨⟨l1, by rw [hf], hl1⟩, ?_⟩
    · unfold withRng PyM.zoom; rw [hs1]
    · rw [hf]
      refine ⟨rs', rfl, hr1', valsOf_eq_map hr1', ?_⟩
      intro v hv
      refine hr3 v ?_
      rw [← hr2, hmap]
      exact (hs2.map _).subset hv

end Stoq
