import Verif.Proofs.DriftDraw
import Verif.Proofs.DriftHistory
import Verif.Proofs.CompileLoop
import Verif.Proofs.Rav

/-! # Compilation with the clean-up of small matrix entries and rounding -/

namespace Stoq

open World Compiler Matrix

variable {n k c : ℕ} {τ : Arith} {t ε : ℝ} {ι : EntryVal → Gate}

/-- The stored products are close to those of the ideal gates `ι v`. -/
def Ideal (n : ℕ) (t ε : ℝ) (k : ℕ) (ι : EntryVal → Gate) (es : List EntryObj) (o : SeqObj) : Prop :=
  DriftOk n t ε k es o ((valsOf es o.entries).map ι) ((o.previousEntries.map (valsOf es)).map (List.map ι))

theorem Ideal.mono {es : List EntryObj} {o : SeqObj} {k' : ℕ} (h : Ideal n t ε k ι es o) (hτ : 0 ≤ t) (hε : 0 ≤ ε)
    (hk : k ≤ k') : Ideal n t ε k' ι es o := DriftOk.mono h hτ hε hk

theorem Ideal.grow {es es' : List EntryObj} {o : SeqObj} (h : Ideal n t ε k ι es o) (ho : SeqOk es o)
    (hg : Grow es es') : Ideal n t ε k ι es' o := by
  unfold Ideal
  rw [ho.entries.vals_grow hg, prevVals_grow ho hg]
  exact DriftOk.grow h ho hg

theorem MutPost.ideal {w w' : World} {s : ℕ} {o o' : SeqObj} {b : Bool} {upd : List ℕ} {res : Except PyErr Unit}
    {gates new : List EntryVal} {k' : ℕ} (hm : MutPost τ w s o b upd res w' o') (hg : valsOf w.entries o.entries = gates)
    (hv : valsOf w'.entries o'.entries = new)
    (h : DriftOk n t ε k' w'.entries o' (new.map ι)
      (if b then some (gates.map ι) else (o.previousEntries.map (valsOf w.entries)).map (List.map ι))) :
    Ideal n t ε k' ι w'.entries o' := by
  unfold Ideal
  rw [hv, hm.undo, hg]
  cases b <;> exact h

/-- The change never fails and keeps the products close, using up `c` operations. -/
def NearlyOk (n : ℕ) (t ε : ℝ) (ι : EntryVal → Gate) (s k : ℕ) (res : Except PyErr Unit) (w' : World) : Prop :=
  res = .ok () ∧ ∃ o', w'.seqs[s]? = some o' ∧ Ideal n t ε k ι w'.entries o'

theorem appendFirstAll_near {s : ℕ} (rs : List ℕ) (first : Bool) {w : World} {o : SeqObj} (hw : w.WF τ)
    (hs : w.seqs[s]? = some o) (ha : o.isArray = false) (hrs : ∀ r ∈ rs, r < w.entries.length)
    (hι : ∀ v ∈ valsOf w.entries rs, (ι v).Ok n ∧ v.Realises (ι v) ε) (h : Ideal n t ε k ι w.entries o)
    (hb : Budget n τ t ε (k + rs.length)) :
    Wp (appendFirstAll τ s first rs) (NearlyOk n t ε ι s (k + rs.length)) w := by
  induction rs generalizing first w o k with
  | nil => exact Wp.pure ⟨rfl, o, hs, h⟩
  | cons e rs ih =>
    unfold appendFirstAll
    have he := List.getElem?_eq_getElem (hrs e (by simp))
    have hrs' : ∀ r ∈ rs, r < w.entries.length := fun r hr => hrs r (by simp [hr])
    generalize w.entries[e]'(hrs e (by simp)) = x at he
    obtain ⟨⟨hx1, hx2⟩, hι'⟩ := valsOf_mem_fits he hι
    have hb' : Budget n τ t ε (k + 1 + rs.length) := by
      rw [show k + 1 + rs.length = k + (e :: rs).length by simp; omega]; exact hb
    refine Wp.bind ((appendFirst_drift h (hb'.mono (by omega)) hw hs he hx2 hx1 first).mono ?_)
    rintro res w1 ⟨o1, hpost, hd0, -⟩
    obtain ⟨rfl, hd⟩ := hd0 ha
    have hfit : FitsDim x.toVal o.dimension := by rw [h.dim]; exact (hx2.wf hx1).fitsDim (hx2.fits hx1)
    have hm := (hpost.accept hfit).1 ha
    have hlt : ∀ r ∈ rs, r < w1.entries.length := by
      intro r hr
      obtain ⟨y, hy, -⟩ := hm.step.grow r _ (List.getElem?_eq_getElem (hrs' r hr))
      exact (List.getElem?_eq_some_iff.mp hy).1
    have hvo : valsOf w1.entries o1.entries = x.toVal :: valsOf w.entries o.entries := by
      obtain ⟨y, hy, hyv⟩ := hm.step.grow e x he
      rw [hm.ok rfl, valsOf_cons hy, hyv, (hw.seq hs).entries.vals_grow hm.step.grow]
    have := ih false (hm.step.wf hw) (hm.step.get hs) (hm.step.arr.trans ha) hlt
      (by rw [valsOf_grow hrs' hm.step.grow]; exact hι') (hm.ideal rfl hvo hd) hb'
    rw [show k + 1 + rs.length = k + (e :: rs).length by simp; omega] at this
    exact this

theorem appendLastAll_near {s : ℕ} (rs : List ℕ) (first : Bool) {w : World} {o : SeqObj} (hw : w.WF τ)
    (hs : w.seqs[s]? = some o) (ha : o.isArray = false) (hrs : ∀ r ∈ rs, r < w.entries.length)
    (hι : ∀ v ∈ valsOf w.entries rs, (ι v).Ok n ∧ v.Realises (ι v) ε) (h : Ideal n t ε k ι w.entries o)
    (hb : Budget n τ t ε (k + rs.length)) :
    Wp (appendLastAll τ s first rs) (NearlyOk n t ε ι s (k + rs.length)) w := by
  induction rs generalizing first w o k with
  | nil => exact Wp.pure ⟨rfl, o, hs, h⟩
  | cons e rs ih =>
    unfold appendLastAll
    have he := List.getElem?_eq_getElem (hrs e (by simp))
    have hrs' : ∀ r ∈ rs, r < w.entries.length := fun r hr => hrs r (by simp [hr])
    generalize w.entries[e]'(hrs e (by simp)) = x at he
    obtain ⟨⟨hx1, hx2⟩, hι'⟩ := valsOf_mem_fits he hι
    have hb' : Budget n τ t ε (k + 1 + rs.length) := by
      rw [show k + 1 + rs.length = k + (e :: rs).length by simp; omega]; exact hb
    refine Wp.bind ((appendLast_drift h (hb'.mono (by omega)) hw hs he hx2 hx1 first).mono ?_)
    rintro res w1 ⟨o1, hpost, hd0, -⟩
    obtain ⟨rfl, hd⟩ := hd0 ha
    have hfit : FitsDim x.toVal o.dimension := by rw [h.dim]; exact (hx2.wf hx1).fitsDim (hx2.fits hx1)
    have hm := (hpost.accept hfit).1 ha
    have hlt : ∀ r ∈ rs, r < w1.entries.length := by
      intro r hr
      obtain ⟨y, hy, -⟩ := hm.step.grow r _ (List.getElem?_eq_getElem (hrs' r hr))
      exact (List.getElem?_eq_some_iff.mp hy).1
    have hvo : valsOf w1.entries o1.entries = valsOf w.entries o.entries ++ [x.toVal] := by
      obtain ⟨y, hy, hyv⟩ := hm.step.grow e x he
      rw [hm.ok rfl, valsOf_append, valsOf_cons hy, hyv, (hw.seq hs).entries.vals_grow hm.step.grow]; rfl
    have hd' := hd
    rw [show (valsOf w.entries o.entries).map ι ++ [ι x.toVal] = (valsOf w.entries o.entries ++ [x.toVal]).map ι by simp]
      at hd'
    have := ih false (hm.step.wf hw) (hm.step.get hs) (hm.step.arr.trans ha) hlt
      (by rw [valsOf_grow hrs' hm.step.grow]; exact hι') (hm.ideal rfl hvo hd') hb'
    rw [show k + 1 + rs.length = k + (e :: rs).length by simp; omega] at this
    exact this

theorem removeFirstN_near {s : ℕ} (L : ℕ) (first : Bool) {w : World} {o : SeqObj} (hw : w.WF τ)
    (hs : w.seqs[s]? = some o) (ha : o.isArray = false) (h : Ideal n t ε k ι w.entries o)
    (hb : Budget n τ t ε (k + L)) : Wp (removeFirstN τ s first L) (NearlyOk n t ε ι s (k + L)) w := by
  induction L generalizing first w o k with
  | zero => exact Wp.pure ⟨rfl, o, hs, h⟩
  | succ L ih =>
    by_cases hnil : o.entries = []
    · exact Wp.of_eq (removeFirstN_nil hw hs hnil _ _) ⟨rfl, o, hs, h.mono hb.t0 hb.eps (by omega)⟩
    unfold removeFirstN
    refine Wp.bind ((removeFirst_drift h (hb.mono (by omega)) hw hs first hnil).mono ?_)
    rintro res w1 ⟨o1, hpost, hd0, -⟩
    obtain ⟨rfl, hd⟩ := hd0 ha
    have hm := (hpost.some hnil).1 ha
    have hlt := (hw.seq hs).entries.lt
    have hvo : valsOf w1.entries o1.entries = (valsOf w.entries o.entries).tail := by
      rw [hm.ok rfl, ← valsOf_tail hlt]
      exact valsOf_grow (fun r hr => hlt r (List.mem_of_mem_tail hr)) hm.step.grow
    have hd' := hd
    rw [← List.map_tail] at hd'
    have := ih false (hm.step.wf hw) (hm.step.get hs) (hm.step.arr.trans ha) (hm.ideal rfl hvo hd')
      (by rw [show k + 1 + L = k + (L + 1) by omega]; exact hb)
    rw [show k + 1 + L = k + (L + 1) by omega] at this
    exact this

theorem removeLastN_near {s : ℕ} (L : ℕ) (first : Bool) {w : World} {o : SeqObj} (hw : w.WF τ)
    (hs : w.seqs[s]? = some o) (ha : o.isArray = false) (h : Ideal n t ε k ι w.entries o)
    (hb : Budget n τ t ε (k + L)) : Wp (removeLastN τ s first L) (NearlyOk n t ε ι s (k + L)) w := by
  induction L generalizing first w o k with
  | zero => exact Wp.pure ⟨rfl, o, hs, h⟩
  | succ L ih =>
    by_cases hnil : o.entries = []
    · exact Wp.of_eq (removeLastN_nil hw hs hnil _ _) ⟨rfl, o, hs, h.mono hb.t0 hb.eps (by omega)⟩
    unfold removeLastN
    refine Wp.bind ((removeLast_drift h (hb.mono (by omega)) hw hs first hnil).mono ?_)
    rintro res w1 ⟨o1, hpost, hd0, -⟩
    obtain ⟨rfl, hd⟩ := hd0 ha
    have hm := (hpost.some hnil).1 ha
    have hlt := (hw.seq hs).entries.lt
    have hvo : valsOf w1.entries o1.entries = (valsOf w.entries o.entries).dropLast := by
      rw [hm.ok rfl, ← valsOf_dropLast hlt]
      exact valsOf_grow (fun r hr => hlt r (List.mem_of_mem_dropLast hr)) hm.step.grow
    have hd' := hd
    rw [← List.map_dropLast] at hd'
    have := ih false (hm.step.wf hw) (hm.step.get hs) (hm.step.arr.trans ha) (hm.ideal rfl hvo hd')
      (by rw [show k + 1 + L = k + (L + 1) by omega]; exact hb)
    rw [show k + 1 + L = k + (L + 1) by omega] at this
    exact this

/-- `change` never fails and keeps the products close, counting as `c` operations. -/
def NearRefines (n : ℕ) (τ : Arith) (t ε : ℝ) (ι : EntryVal → Gate) (c : ℕ) (change : ℕ → PyM World Unit) : Prop :=
  ∀ (w : World) (s k : ℕ) (o : SeqObj), w.WF τ → w.seqs[s]? = some o → o.isArray = false →
    Ideal n t ε k ι w.entries o → Budget n τ t ε (k + c) → Wp (change s) (NearlyOk n t ε ι s (k + c)) w

theorem NearlyOk.mono {s k' : ℕ} {res : Except PyErr Unit} {w : World} (h : NearlyOk n t ε ι s k res w) (hτ : 0 ≤ t)
    (hε : 0 ≤ ε) (hk : k ≤ k') : NearlyOk n t ε ι s k' res w := by
  obtain ⟨h1, o, h2, h3⟩ := h
  exact ⟨h1, o, h2, h3.mono hτ hε hk⟩

theorem changeWith_near {C : Compiler} {mk : PyM World (List ℕ)} {fresh : PyM Rng (List EntryVal)}
    {G : EntryVal → Prop} (hmk : MkOk G mk fresh) (hfresh : ∀ r, ∃ vs r', fresh r = (.ok vs, r') ∧ vs.length ≤ c)
    {L : ℕ} (hL : L ≤ c) (h0 : 0 ≤ C.appendProbability) (h1 : C.appendProbability ≤ 1)
    (hG : ∀ v, G v → (ι v).Ok n ∧ v.Realises (ι v) ε) : NearRefines n τ t ε ι c (changeWith τ C mk L) := by
  intro w s k o hw hs ha h hb
  unfold changeWith
  refine Wp.bind_ok (chooseAction_eq h0 h1 w) ?_
  generalize hr1 : ({ w.rng with upos := w.rng.upos + 1 } : Rng) = r1
  have hw1 : ({ w with rng := r1 } : World).WF τ := ⟨hw.entries, hw.seqs⟩
  obtain ⟨vs, r2, hf, hlen⟩ := hfresh r1
  rcases pick C.appendProbability (w.rng.unif w.rng.upos) with _ | _ | _ | _
  · simp only
    refine Wp.bind ((hmk _).mono ?_)
    rintro res w2 ⟨⟨l, rfl, hl⟩, hres⟩
    simp only at hres
    rw [hf] at hres
    obtain ⟨rs, rfl, h2, h3, h4⟩ := hres
    simp only at h2 h3 ⊢
    have hrl : rs.length ≤ c := by
      rw [← h3, valsOf_eq_map h2, List.length_map] at hlen; exact hlen
    exact (appendFirstAll_near rs true (addEntries_wf hw hl _) hs ha h2
      (by simp only; rw [h3]; exact fun v hv => hG v (h4 v hv)) (h.grow (hw.seq hs) (.append _ _))
      (hb.mono (by omega))).mono fun _ _ hn => hn.mono hb.t0 hb.eps (Nat.add_le_add_left hrl k)
  · simp only
    refine Wp.bind ((hmk _).mono ?_)
    rintro res w2 ⟨⟨l, rfl, hl⟩, hres⟩
    simp only at hres
    rw [hf] at hres
    obtain ⟨rs, rfl, h2, h3, h4⟩ := hres
    simp only at h2 h3 ⊢
    have hrl : rs.length ≤ c := by
      rw [← h3, valsOf_eq_map h2, List.length_map] at hlen; exact hlen
    exact (appendLastAll_near rs true (addEntries_wf hw hl _) hs ha h2
      (by simp only; rw [h3]; exact fun v hv => hG v (h4 v hv)) (h.grow (hw.seq hs) (.append _ _))
      (hb.mono (by omega))).mono fun _ _ hn => hn.mono hb.t0 hb.eps (Nat.add_le_add_left hrl k)
  · exact (removeFirstN_near L true hw1 hs ha h (hb.mono (by omega))).mono fun _ _ hn =>
      hn.mono hb.t0 hb.eps (by omega)
  · exact (removeLastN_near L true hw1 hs ha h (hb.mono (by omega))).mono fun _ _ hn =>
      hn.mono hb.t0 hb.eps (by omega)

/-! ## Products and costs -/

theorem product_near {s : ℕ} {w : World} {o : SeqObj} (h : Ideal n t ε k ι w.entries o) (hb : Budget n τ t ε k)
    (hw : w.WF τ) (hs : w.seqs[s]? = some o) :
    Wp (Seq.product τ s) (fun res w' => ∃ o' p, ProductPost τ w s o res w' o' ∧ res = .ok p ∧
      p.Near (gateProduct n ((valsOf w.entries o.entries).map ι)) (driftErr n t ε k) ∧ Ideal n t ε k ι w'.entries o' ∧
      o'.product = some p ∧ valsOf w'.entries o'.entries = valsOf w.entries o.entries) w := by
  refine (product_drift h hb hw hs).mono ?_
  rintro res w' ⟨o', p, hp, h1, h2, h3, h4⟩
  have hv : valsOf w'.entries o'.entries = valsOf w.entries o.entries := by
    rw [hp.same.entries, (hw.seq hs).entries.vals_grow hp.step.grow]
  refine ⟨o', p, hp, h1, h2, ?_, h4, hv⟩
  unfold Ideal
  rw [hv, hp.same.prev, prevVals_grow (hw.seq hs) hp.step.grow]
  exact h3

theorem Ideal.mem {es : List EntryObj} {o : SeqObj} (h : Ideal n t ε k ι es o) :
    gateProduct n ((valsOf es o.entries).map ι) ∈ unitaryGroup (Fin (2 ^ n)) ℂ := gateProduct_mem h.gok

theorem driftErr_add (hb : Budget n τ t ε (k + 1)) : driftErr n t ε k + 3 * 2 ^ n * t ≤ driftErr n t ε (k + 1) := by
  rw [driftErr_succ]
  have h1 := driftErr_nonneg (n := n) (k := k) hb.t0 hb.eps
  have h2 := two_pow_tau_nonneg n hb.t0
  have h3 : 3 * 2 ^ n * t ≤ stepErr n t ε := by unfold stepErr; nlinarith [hb.eps]
  nlinarith [mul_nonneg h1 (h2.trans (by linarith : (2 : ℝ) ^ n * t ≤ stepErr n t ε))]

section cost

variable {T : Matrix (Fin (2 ^ n)) (Fin (2 ^ n)) ℂ} {target : Unitary} {δ : ℝ} {K : ℕ}

theorem cost_near (hT : T ∈ unitaryGroup (Fin (2 ^ n)) ℂ) (ht : target.Near T δ) (hδ : δ + 3 * 2 ^ n * t ≤ driftLimit)
    (hb : Budget n τ t ε (K + 1)) (hk : k ≤ K) {p : Unitary} {gates : List EntryVal}
    (hp : p.Near (gateProduct n (gates.map ι)) (driftErr n t ε k))
    (hm : gateProduct n (gates.map ι) ∈ unitaryGroup (Fin (2 ^ n)) ℂ) :
    ∃ x, target.distanceFrom τ p = .ok x ∧ |x - Metropolis.idealCost n T ι gates| ≤ costErr n t ε δ K := by
  obtain ⟨x, h1, h2⟩ := Unitary.distanceFrom_near (Nat.two_pow_pos n) hb.tau ht hp hT hm (by rw [cast_two_pow]; exact hδ)
    ((((driftErr_mono (n := n) hb.t0 hb.eps (show k ≤ K + 1 by omega)).trans hb.lim)).trans (by unfold driftLimit; norm_num))
  refine ⟨x, h1, h2.trans ?_⟩
  rw [cast_two_pow]
  unfold costErr
  have h3 := driftErr_mono (n := n) hb.t0 hb.eps (show k ≤ K + 1 by omega)
  have h4 := two_pow_tau_nonneg n hb.t0
  have h5 := ht.nonneg
  nlinarith

theorem close_near (hT : T ∈ unitaryGroup (Fin (2 ^ n)) ℂ) (ht : target.Near T δ) (hδ : δ + 3 * 2 ^ n * t ≤ driftLimit)
    (hb : Budget n τ t ε (K + 1)) (hk : k ≤ K) {p : Unitary} {gates : List EntryVal} (hp : p.Near (gateProduct n (gates.map ι)) (driftErr n t ε k))
    (hm : gateProduct n (gates.map ι) ∈ unitaryGroup (Fin (2 ^ n)) ℂ) (threshold : Option ℝ) :
    ∃ x, p.closeTo τ target threshold = .ok (open Classical in decide (Metropolis.GoodEnough threshold x)) ∧
      |x - Metropolis.idealCost n T ι gates| ≤ costErr n t ε δ K := by
  have hle := (driftErr_add (hb.mono (show k + 1 ≤ K + 1 by omega))).trans
    (driftErr_mono (n := n) hb.t0 hb.eps (show k + 1 ≤ K + 1 by omega))
  obtain ⟨x, h1, h2⟩ := Unitary.distanceFrom_near (Nat.two_pow_pos n) hb.tau hp ht hm hT
    (by rw [cast_two_pow]; exact hle.trans hb.lim)
    (by have := two_pow_tau_nonneg n hb.t0; unfold driftLimit at hδ; linarith)
  refine ⟨x, ?_, ?_⟩
  · unfold Unitary.closeTo Unitary.closeToArr
    unfold Unitary.distanceFrom at h1
    rw [h1, ok_bind]
    rcases threshold with _ | t
    · simp only [isclose, sub_zero, norm_zero, mul_zero, add_zero, pure_except, Complex.norm_real, Real.norm_eq_abs,
        Metropolis.GoodEnough]
      norm_num
    · rfl
  · unfold Metropolis.idealCost
    rw [overlap_comm]
    refine h2.trans ?_
    rw [cast_two_pow]
    unfold costErr
    have h4 := two_pow_tau_nonneg n hb.t0
    have h5 := ht.nonneg
    have h6 := driftErr_nonneg (n := n) (k := K + 1) hb.t0 hb.eps
    nlinarith

/-! ## One step -/

/-- What one step does. -/
structure StepNear' (n : ℕ) (τ : Arith) (t ε δ : ℝ) (K k : ℕ) (ι : EntryVal → Gate) (T : Matrix (Fin (2 ^ n)) (Fin (2 ^ n)) ℂ)
    (prop : List EntryVal → PyM Rng (List EntryVal)) (C : Compiler) (w : World) (b : ℝ) (s : ℕ) (o : SeqObj)
    (res : Except PyErr ℝ) (w' : World) : Prop where
  out : ∃ new r1 x y o', prop (valsOf w.entries o.entries) w.rng = (.ok new, r1) ∧
    |x - Metropolis.idealCost n T ι (valsOf w.entries o.entries)| ≤ costErr n t ε δ K ∧
    |y - Metropolis.idealCost n T ι new| ≤ costErr n t ε δ K ∧
    w'.rng = { r1 with upos := r1.upos + 1 } ∧ w'.seqs[s]? = some o' ∧ o'.isArray = false ∧ w'.WF τ ∧
    w'.betas[C.self]? = some (min (b + C.annealingRate) C.maxBeta) ∧
    Ideal n t ε k ι w'.entries o' ∧
    (((r1.unif r1.upos : ℝ) < min 1 (Real.exp (-min (b + C.annealingRate) C.maxBeta * (y - x))) ∧ res = .ok y ∧
        valsOf w'.entries o'.entries = new) ∨
      (¬ (r1.unif r1.upos : ℝ) < min 1 (Real.exp (-min (b + C.annealingRate) C.maxBeta * (y - x))) ∧ res = .ok x ∧
        valsOf w'.entries o'.entries = valsOf w.entries o.entries))

theorem compileStep_near {G : EntryVal → Prop} {change : ℕ → PyM World Unit}
    {prop : List EntryVal → PyM Rng (List EntryVal)} (hch : Refines τ G change prop) (hnr : NearRefines n τ t ε ι c change)
    {C : Compiler} (hT : T ∈ unitaryGroup (Fin (2 ^ n)) ℂ) (ht : target.Near T δ) (hδ : δ + 3 * 2 ^ n * t ≤ driftLimit)
    (hb : Budget n τ t ε (K + 1)) (hk : k + c ≤ K) {w : World} {s : ℕ} {o : SeqObj} {b : ℝ} (hw : w.WF τ)
    (hs : w.seqs[s]? = some o) (ha : o.isArray = false) (hbeta : w.betas[C.self]? = some b)
    (h : Ideal n t ε k ι w.entries o) :
    Wp (compileStep τ C change target s) (StepNear' n τ t ε δ K (k + c) ι T prop C w b s o) w := by
  unfold compileStep
  refine Wp.bind_ok (getBeta_some hbeta) ?_
  set beta := min (b + C.annealingRate) C.maxBeta with hbeq
  refine Wp.bind_ok (a := ()) (w' := { w with betas := w.betas.set C.self beta }) rfl ?_
  generalize hw0 : ({ w with betas := w.betas.set C.self beta } : World) = w0
  have hw0' : w0.WF τ := by subst hw0; exact ⟨hw.entries, hw.seqs⟩
  have hs0 : w0.seqs[s]? = some o := by subst hw0; exact hs
  have hb0 : w0.betas[C.self]? = some beta := by
    subst hw0; simp [(List.getElem?_eq_some_iff.mp hbeta).1]
  have hent0 : w0.entries = w.entries := by subst hw0; rfl
  have hrng0 : w0.rng = w.rng := by subst hw0; rfl
  clear hw0
  have h0 : Ideal n t ε k ι w0.entries o := by rw [hent0]; exact h
  -- the product before
  refine Wp.bind ((product_near h0 (hb.mono (by omega)) hw0' hs0).mono ?_)
  rintro res w1 ⟨o1, p1, hp1, rfl, hn1, h1, hst1, hv1⟩
  simp only
  rw [hent0] at hn1 hv1
  have hw1 := hp1.step.wf hw0'
  have hs1 := hp1.step.get hs0
  have ha1 : o1.isArray = false := hp1.step.arr.trans ha
  have hrng1 : w1.rng = w.rng := hp1.step.rng.trans hrng0
  -- the change
  refine Wp.bind ((Wp.and (hch w1 s o1 hw1 hs1 ha1) (hnr w1 s k o1 hw1 hs1 ha1 h1 (hb.mono (by omega)))).mono ?_)
  rintro res w2 ⟨⟨o2, hc⟩, rfl, o2', hs2, h2⟩
  rw [hc.get] at hs2; cases hs2
  simp only
  obtain ⟨new, hnew, hvnew, hundo⟩ := hc.ok rfl
  rw [hv1, hrng1] at hnew
  rw [hv1] at hundo
  -- the current cost
  obtain ⟨x, hx1, hx2⟩ := cost_near hT ht hδ hb (by omega) hn1 h.mem
  rw [hx1]
  refine Wp.bind_ok (a := x) (w' := w2) rfl ?_
  -- the product after
  refine Wp.bind ((product_near h2 (hb.mono (by omega)) hc.wf hc.get).mono ?_)
  rintro res w3 ⟨o3, p3, hp3, rfl, hn3, h3, hst3, hv3⟩
  simp only
  rw [hvnew] at hn3 hv3
  have hw3 := hp3.step.wf hc.wf
  have hs3 := hp3.step.get hc.get
  have ha3 : o3.isArray = false := hp3.step.arr.trans hc.arr
  have hb3 : w3.betas[C.self]? = some beta := by
    rw [hp3.step.betas, hc.betas, hp1.step.betas]; exact hb0
  obtain ⟨y, hy1, hy2⟩ := cost_near hT ht hδ hb (by omega) hn3 (by rw [← hvnew]; exact h2.mem)
  rw [hy1]
  refine Wp.bind_ok (a := y) (w' := w3) rfl ?_
  -- the decision
  have hrng3 : w3.rng = w2.rng := hp3.step.rng
  refine Wp.bind_ok (acceptProposedChange_eq hb3 x y) ?_
  generalize hr4 : ({ w3.rng with upos := w3.rng.upos + 1 } : Rng) = r4
  have hr4' : r4 = { w2.rng with upos := w2.rng.upos + 1 } := by rw [← hr4, hrng3]
  rw [hrng3]
  have hw4 : ({ w3 with rng := r4 } : World).WF τ := ⟨hw3.entries, hw3.seqs⟩
  by_cases hacc : (w2.rng.unif w2.rng.upos : ℝ) < acceptanceProbability beta x y
  · rw [if_pos (by simpa using hacc)]
    exact Wp.pure ⟨new, w2.rng, x, y, o3, hnew, hx2, hy2, hr4', hs3, ha3, hw4, hb3, h3, .inl ⟨hacc, rfl, hv3⟩⟩
  · rw [if_neg (by simpa using hacc)]
    have hps : ∃ ps, o3.previousEntries = some ps ∧ valsOf w3.entries ps = valsOf w.entries o.entries := by
      rcases hundo with rfl | h
      · exfalso
        obtain ⟨e1, -⟩ := hp3.cached p1 hst1
        cases e1
        rw [hx1] at hy1
        cases hy1
        rw [acceptanceProbability_self] at hacc
        exact hacc (w2.rng.unif w2.rng.upos).2.2
      · rw [← hp3.same.prev] at h
        obtain ⟨ps, e2, e3⟩ := Option.map_eq_some_iff.mp h
        refine ⟨ps, e2, ?_⟩
        rw [← e3]
        exact ((hc.wf.seq hc.get).prev ps (by rw [← hp3.same.prev]; exact e2)).vals_grow hp3.step.grow
    obtain ⟨ps, hps1, hps2⟩ := hps
    have hund := undo_drift (w := w3) h3 (gs' := (valsOf w.entries o.entries).map ι)
      (by rw [hps1, Option.map_some, Option.map_some, hps2]) hps1
    refine Wp.bind ((undo_wp hw4 hs3).mono ?_)
    rintro res w5 ⟨o5, hst5, -, hsome, -⟩
    obtain ⟨rfl, hent5, ho5⟩ := hsome ps hps1
    have hv5 : valsOf w5.entries o5.entries = valsOf w.entries o.entries := by
      rw [hent5, ho5]; exact hps2
    have h5 : Ideal n t ε (k + c) ι w5.entries o5 := by
      unfold Ideal
      rw [hv5, hent5, ho5]
      exact hund
    exact Wp.pure ⟨new, w2.rng, x, y, o5, hnew, hx2, hy2, by rw [hst5.rng]; exact hr4', hst5.get hs3,
      hst5.arr.trans ha3, hst5.wf hw4, by rw [hst5.betas]; exact hb3, h5, .inr ⟨hacc, rfl, hv5⟩⟩

theorem isClose_near (hT : T ∈ unitaryGroup (Fin (2 ^ n)) ℂ) (ht : target.Near T δ) (hδ : δ + 3 * 2 ^ n * t ≤ driftLimit)
    (hb : Budget n τ t ε (K + 1)) (hk : k ≤ K) {w : World} {s : ℕ} {o : SeqObj} (hw : w.WF τ) (hs : w.seqs[s]? = some o)
    (h : Ideal n t ε k ι w.entries o) (threshold : Option ℝ) :
    Wp (isClose τ target threshold s) (fun res w' => ∃ o' x, Step τ w w' s o o' ∧ Ideal n t ε k ι w'.entries o' ∧
      valsOf w'.entries o'.entries = valsOf w.entries o.entries ∧
      |x - Metropolis.idealCost n T ι (valsOf w.entries o.entries)| ≤ costErr n t ε δ K ∧
      res = .ok (open Classical in decide (Metropolis.GoodEnough threshold x))) w := by
  unfold isClose
  refine Wp.bind ((product_near h (hb.mono (by omega)) hw hs).mono ?_)
  rintro res w1 ⟨o1, p1, hp1, rfl, hn1, h1, hst1, hv1⟩
  simp only
  obtain ⟨x, hx1, hx2⟩ := close_near hT ht hδ hb hk hn1 h.mem threshold
  rw [hx1]
  exact ⟨o1, x, hp1.step, h1, hv1, hx2, rfl⟩

/-! ## The loop -/

/-- Outcome of the loop. -/
def LoopNear (n : ℕ) (τ : Arith) (t ε δ : ℝ) (K : ℕ) (ι : EntryVal → Gate) (T : Matrix (Fin (2 ^ n)) (Fin (2 ^ n)) ℂ)
    (prop : List EntryVal → PyM Rng (List EntryVal)) (C : Compiler) (threshold : Option ℝ) (left : ℕ) (costs : List ℝ)
    (gates : List EntryVal) (r : Rng) (b : ℝ) (s : ℕ) (res : Except PyErr (List ℝ)) (w' : World) : Prop :=
  ∃ o' more b', res = .ok (costs ++ more) ∧ w'.WF τ ∧ w'.seqs[s]? = some o' ∧ o'.isArray = false ∧
    w'.betas[C.self]? = some b' ∧ Ideal n t ε K ι w'.entries o' ∧
    Metropolis.NearRun (Metropolis.idealCost n T ι) (costErr n t ε δ K) threshold C.annealingRate C.maxBeta prop left
      gates b r more (valsOf w'.entries o'.entries) b' w'.rng

theorem compileLoop_near {G : EntryVal → Prop} {change : ℕ → PyM World Unit}
    {prop : List EntryVal → PyM Rng (List EntryVal)} (hch : Refines τ G change prop) (hnr : NearRefines n τ t ε ι c change)
    {C : Compiler} (hT : T ∈ unitaryGroup (Fin (2 ^ n)) ℂ) (ht : target.Near T δ) (hδ : δ + 3 * 2 ^ n * t ≤ driftLimit)
    (hb : Budget n τ t ε (K + 1)) (threshold : Option ℝ) (m : ℤ) {s : ℕ} (fuel : ℕ) (costs : List ℝ)
    (hfuel : m.toNat - costs.length ≤ fuel) (hk : k + c * (m.toNat - costs.length) ≤ K) {w : World} {o : SeqObj} {b : ℝ}
    (hw : w.WF τ) (hs : w.seqs[s]? = some o) (ha : o.isArray = false) (hbeta : w.betas[C.self]? = some b)
    (h : Ideal n t ε k ι w.entries o) :
    Wp (compileLoop τ C change target threshold m s fuel costs)
      (LoopNear n τ t ε δ K ι T prop C threshold (m.toNat - costs.length) costs (valsOf w.entries o.entries) w.rng b s) w := by
  induction fuel generalizing costs w b o k with
  | zero =>
    rw [compileLoop]
    unfold loopTest
    refine Wp.bind ((isClose_near hT ht hδ hb (by omega) hw hs h threshold).mono ?_)
    rintro res w1 ⟨o1, x, hst, h1, hv1, hx, rfl⟩
    simp only
    have key : ∀ hz : m.toNat - costs.length = 0, LoopNear n τ t ε δ K ι T prop C threshold (m.toNat - costs.length) costs
        (valsOf w.entries o.entries) w.rng b s (.ok costs) w1 := fun hz =>
      ⟨o1, [], b, by simp, hst.wf hw, hst.get hs, hst.arr.trans ha, by rw [hst.betas]; exact hbeta,
        h1.mono hb.t0 hb.eps (by omega), by rw [hv1, hst.rng, hz]; exact .out⟩
    split_ifs with h2 h3
    · exact Wp.pure (key (by omega))
    · omega
    · exact Wp.pure (key (by omega))
  | succ fuel ih =>
    rw [compileLoop]
    unfold loopTest
    refine Wp.bind ((isClose_near hT ht hδ hb (le_trans (Nat.le_add_right _ _) hk) hw hs h threshold).mono ?_)
    rintro res w1 ⟨o1, x, hst, h1, hv1, hx, rfl⟩
    simp only
    have hw1 := hst.wf hw
    have hs1 := hst.get hs
    have ha1 := hst.arr.trans ha
    have hb1 : w1.betas[C.self]? = some b := by rw [hst.betas]; exact hbeta
    split_ifs with h2 h3
    · exact Wp.pure ⟨o1, [], b, by simp, hw1, hs1, ha1, hb1,
        h1.mono hb.t0 hb.eps (le_trans (Nat.le_add_right _ _) hk),
        by rw [hv1, hst.rng]; exact .stop x hx (by simpa using h2)⟩
    · have hgood : ¬ Metropolis.GoodEnough threshold x := by simpa using h2
      have hlt : (costs.length : ℤ) < m := h3
      obtain ⟨left, hleft⟩ : ∃ left, m.toNat - costs.length = left + 1 := ⟨m.toNat - costs.length - 1, by omega⟩
      rw [hleft] at hk ⊢
      rw [Nat.mul_succ] at hk
      refine Wp.bind ((compileStep_near hch hnr hT ht hδ hb (by omega : k + c ≤ K) hw1 hs1 ha1 hb1 h1).mono ?_)
      rintro res w2 ⟨new, r1, x', y, o2, g1, g2, g3, g4, g5, g6, g7, g8, g9, g10⟩
      rw [hv1] at g1 g2 g10
      rw [hst.rng] at g1
      rcases g10 with ⟨g11, rfl, g12⟩ | ⟨g11, rfl, g12⟩
      · simp only
        have hl2 : m.toNat - (costs ++ [y]).length = left := by simp; omega
        refine (ih (costs ++ [y]) (by omega) (k := k + c) (by rw [hl2]; omega) g7 g5 g6 g8 g9).mono ?_
        rintro res w3 ⟨o3, more, b', e1, e2, e3, e4, e5, e6, e7⟩
        rw [hl2, g12, g4] at e7
        exact ⟨o3, y :: more, b', by rw [e1]; simp, e2, e3, e4, e5, e6, .accept x x' y hx hgood g1 g2 g3 g11 e7⟩
      · simp only
        have hl2 : m.toNat - (costs ++ [x']).length = left := by simp; omega
        refine (ih (costs ++ [x']) (by omega) (k := k + c) (by rw [hl2]; omega) g7 g5 g6 g8 g9).mono ?_
        rintro res w3 ⟨o3, more, b', e1, e2, e3, e4, e5, e6, e7⟩
        rw [hl2, g12, g4] at e7
        exact ⟨o3, x' :: more, b', by rw [e1]; simp, e2, e3, e4, e5, e6, .reject x x' y hx hgood g1 g2 g3 g11 e7⟩
    · refine Wp.pure ⟨o1, [], b, by simp, hw1, hs1, ha1, hb1,
        h1.mono hb.t0 hb.eps (le_trans (Nat.le_add_right _ _) hk), ?_⟩
      rw [hv1, hst.rng, show m.toNat - costs.length = 0 by omega]
      exact .out

/-- Outcome of a compilation. -/
theorem compileWith_near {G : EntryVal → Prop} {change : ℕ → PyM World Unit}
    {prop : List EntryVal → PyM Rng (List EntryVal)} (hch : Refines τ G change prop) (hnr : NearRefines n τ t ε ι c change)
    {C : Compiler} (hT : T ∈ unitaryGroup (Fin (2 ^ n)) ℂ) (ht : target.Near T δ) (hδ : δ + 3 * 2 ^ n * t ≤ driftLimit)
    (threshold : Option ℝ) (m : ℤ) (hb : Budget n τ t ε (c * m.toNat + 1)) {w : World} {b : ℝ} (hD : C.dimension = 2 ^ n)
    (hw : w.WF τ) (hbeta : w.betas[C.self]? = some b) :
    Wp (compileWith τ C change target threshold m) (fun res w' => ∃ R o' b', res = .ok R ∧
      R.sequence = w.seqs.length ∧ w'.WF τ ∧ w'.seqs[R.sequence]? = some o' ∧ o'.isArray = false ∧
      w'.betas[C.self]? = some b' ∧ Ideal n t ε (c * m.toNat) ι w'.entries o' ∧
      Metropolis.NearRun (Metropolis.idealCost n T ι) (costErr n t ε δ (c * m.toNat)) threshold C.annealingRate C.maxBeta
        prop m.toNat [] b w.rng R.costByStep (valsOf w'.entries o'.entries) b' w'.rng) w := by
  unfold compileWith
  refine Wp.bind ((new_wp hw (rs := []) (by simp)).mono ?_)
  rintro res w1 ⟨-, h⟩
  obtain ⟨rs', rfl, hext, hseqs, hcop⟩ := h (by intro r hr; simp at hr)
  have hrs : rs' = [] := by
    obtain ⟨f, hf, -⟩ := hcop.count
    simpa using hf
  subst hrs
  simp only
  have hs1 : w1.seqs[w.seqs.length]? = some ⟨C.dimension, false, [], none, none, none⟩ := by
    rw [hseqs]; simp
  have hb1 : w1.betas[C.self]? = some b := by rw [hext.betas]; exact hbeta
  have h0 : Ideal n t ε 0 ι w1.entries ⟨C.dimension, false, [], none, none, none⟩ :=
    ⟨hD, .nil, by simp, by simp, by simp, .none, by simp, by simp, by simp⟩
  refine Wp.bind ((compileLoop_near (k := 0) hch hnr hT ht hδ hb threshold m m.toNat [] (by simp) (by simp) hext.wf hs1 rfl
    hb1 h0).mono ?_)
  rintro res w2 ⟨o2, more, b', rfl, e2, e3, e4, e5, e6, e7⟩
  rw [hext.rng] at e7
  exact Wp.pure ⟨⟨w.seqs.length, [] ++ more⟩, o2, b', rfl, rfl, e2, e3, e4, e5, e6, e7⟩

end cost

/-! ## The two compilers -/

theorem usable_of {p : Primitive} (h : p.allowedApplyTo ≠ some []) : usable p = true := by
  unfold usable
  rcases hp : p.allowedApplyTo with _ | _ | ⟨x, l⟩
  · rfl
  · exact absurd hp h
  · simp

theorem layer_near (hd : DrawOk n τ t ε) {counts : List (Primitive × ℤ)} (hprims : ∀ pc ∈ counts, pc.1.Nearly n t ε)
    (hus : ∀ pc ∈ counts, 0 < pc.2 → pc.1.allowedApplyTo ≠ some []) (r : Rng) :
    ∃ vs r', Metropolis.layer (fun p => createRandomEntryVal τ (2 ^ n) [p] none) counts r = (.ok vs, r') := by
  obtain ⟨vs, r1, h1⟩ := Metropolis.block_valid (gen := fun p => createRandomEntryVal τ (2 ^ n) [p] none)
    (counts := counts) (fun pc hpc hpos r => createRandomEntryVal_near hd (prims := [pc.1]) (probs := none)
      (show 0 < ([pc.1].filter usable).length by simp [usable_of (hus pc hpc hpos)]) (by simpa using hprims pc hpc) r) r
  obtain ⟨l, r2, h2, -⟩ := Rng.shuffle_perm vs r1
  exact ⟨l, r2, by unfold Metropolis.layer; rw [PyM.bind_of_ok h1]; exact h2⟩

theorem makeRandomChange_near (hd : DrawOk n τ t ε) {C : Compiler} (hD : C.dimension = 2 ^ n)
    (hp : ∀ p ∈ C.primitives, p.Nearly n t ε) (hch : ChoiceOk C.primitives C.probabilities)
    (h01 : 0 ≤ C.appendProbability ∧ C.appendProbability ≤ 1) (hι : IdealFor τ n C.primitives ε ι) :
    NearRefines n τ t ε ι 1 (makeRandomChange τ C) := by
  rw [makeRandomChange_eq]
  refine changeWith_near (mk_one (G := Generated τ C.dimension C.primitives C.probabilities) fun r v r' h => ⟨r, r', h⟩)
    (fun r => ?_) le_rfl h01.1 h01.2 fun v hv => hι.generated (by rw [← hD]; exact hv)
  obtain ⟨v, r', h⟩ := createRandomEntryVal_near hd hch hp r
  exact ⟨[v], r', Metropolis.one_ok_iff.mpr ⟨v, by rw [hD]; exact h, rfl⟩, by simp⟩

theorem makeRandomChangeLayered_near (hd : DrawOk n τ t ε) {C : Compiler} (hD : C.dimension = 2 ^ n)
    {counts : List (Primitive × ℤ)} (hprims : ∀ pc ∈ counts, pc.1.Nearly n t ε)
    (hus : ∀ pc ∈ counts, 0 < pc.2 → pc.1.allowedApplyTo ≠ some [])
    (h01 : 0 ≤ C.appendProbability ∧ C.appendProbability ≤ 1) (hι : IdealFor τ n (counts.map Prod.fst) ε ι) :
    NearRefines n τ t ε ι (counts.map fun pc => pc.2.toNat).sum (makeRandomChangeLayered τ C counts) := by
  rw [makeRandomChangeLayered_eq]
  refine changeWith_near (mk_layer (G := GeneratedLayer τ C.dimension counts) fun pc hpc r v r' h => ⟨pc, hpc, r, r', h⟩)
    (fun r => ?_) ?_ h01.1 h01.2 fun v hv => hι.generatedLayer (by rw [← hD]; exact hv)
  · obtain ⟨vs, r', h⟩ := layer_near hd hprims hus r
    exact ⟨vs, r', by rw [hD]; exact h, (layer_isLayer h).length.le⟩
  · clear hprims hus hι
    induction counts with
    | nil => simp
    | cons pc counts ih => simp only [List.map_cons, List.sum_cons]; omega

end Stoq
