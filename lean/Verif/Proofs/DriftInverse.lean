import Verif.Proofs.DriftOps

/-! `inverse` and `combine` with the clean-up of small values. -/

namespace Stoq

open World Matrix
open scoped Matrix.Norms.L2Operator

section

variable {n k : ℕ} {τ : Arith} {δ ε ε' : ℝ} {es : List EntryObj} {o : SeqObj} {gs : List Gate} {prev : Option (List Gate)}

theorem driftErr_mono_eps (hτ : 0 ≤ δ) (hε : 0 ≤ ε) (h : ε ≤ ε') : driftErr n δ ε k ≤ driftErr n δ ε' k := by
  have h1 := stepErr_nonneg (n := n) hτ hε
  have h2 : stepErr n δ ε ≤ stepErr n δ ε' := by unfold stepErr; linarith
  unfold driftErr
  gcongr

theorem Budget.mono_eps (h : Budget n τ δ ε' k) (hε : 0 ≤ ε) (hle : ε ≤ ε') : Budget n τ δ ε k :=
  ⟨h.tau, h.tau1, hε, (driftErr_mono_eps h.t0 hε hle).trans h.lim⟩

theorem RealisesAll.mono {l : List EntryVal} (h : RealisesAll ε l gs) (hle : ε ≤ ε') : RealisesAll ε' l gs :=
  List.Forall₂.imp (fun _ _ (h : EntryVal.Realises _ _ ε) => ⟨h.1, h.2.mono hle⟩) h

theorem DriftOk.mono_eps (h : DriftOk n δ ε k es o gs prev) (hτ : 0 ≤ δ) (hε : 0 ≤ ε) (hle : ε ≤ ε') :
    DriftOk n δ ε' k es o gs prev where
  dim := h.dim
  ents := h.ents.mono hle
  gok := h.gok
  len := h.len
  prod p hp := (h.prod p hp).mono (driftErr_mono_eps hτ hε hle)
  prevE := by
    have := h.prevE
    cases hp : Option.map (valsOf es) o.previousEntries with
    | none => rw [hp] at this; cases this; exact .none
    | some l =>
      rw [hp] at this
      cases this with
      | some h' => exact .some (RealisesAll.mono h' hle)
  prevG := h.prevG
  prevP p hp := by
    obtain ⟨gs', h1, h2⟩ := h.prevP p hp
    exact ⟨gs', h1, h2.mono (driftErr_mono_eps hτ hε hle)⟩
  noprod := h.noprod

end

theorem Budget.dim' {n m k : ℕ} {τ : Arith} {δ ε : ℝ} (h : Budget n τ δ ε k) (hm : m ≤ n) : Budget m τ δ ε k := by
  have h1 : (2 : ℝ) ^ m ≤ 2 ^ n := pow_le_pow_right₀ (by norm_num) hm
  refine ⟨h.tau.mono (Nat.pow_le_pow_right (by norm_num) hm), h.tau1, h.eps, le_trans ?_ h.lim⟩
  unfold driftErr stepErr
  have := h.t0; have := h.eps
  gcongr

/-! ## Inverse gates -/

/-- The inverse gate. -/
def Gate.dagger (g : Gate) : Gate := ⟨g.qubits, g.matrixᴴ⟩

section

variable {n k : ℕ} {τ : Arith} {δ ε : ℝ} {g : Gate}

theorem Gate.Ok.dagger (h : g.Ok n) : g.dagger.Ok n := ⟨h.nodup, h.nonempty, h.fits, Unitary.ct_mem h.unitary⟩

theorem Gate.op_dagger (g : Gate) (n : ℕ) : g.dagger.op n = (g.op n)ᴴ := embed_conjTranspose g.matrix

theorem gateProduct_inverse (n : ℕ) (gs : List Gate) :
    gateProduct n (gs.map Gate.dagger).reverse = (gateProduct n gs)ᴴ := by
  induction gs with
  | nil => simp [gateProduct]
  | cons g gs ih =>
    rw [List.map_cons, List.reverse_cons, gateProduct_concat, ih, gateProduct, conjTranspose_mul, Gate.op_dagger]

theorem EntryVal.gate_dagger (v : EntryVal) : v.dagger.gate = v.gate.dagger := by
  unfold EntryVal.gate Gate.dagger
  simp only [EntryVal.dagger, Arr.toMatrix_ct]

theorem Gate.Ok.length_le (h : g.Ok n) : g.qubits.length ≤ n := EntryVal.length_le h.nodup h.fits

theorem invVal_near (hτ : τ.Accurate (2 ^ n) δ) {v : EntryVal} (hv : v.Realises g ε) (hg : g.Ok n)
    (hlim : ε + 3 * 2 ^ n * δ ≤ driftLimit) :
    ∃ v', invVal τ v = .ok v' ∧ v'.Realises g.dagger (ε + 3 * 2 ^ n * δ) := by
  have h1 : (2 : ℝ) ^ g.qubits.length ≤ 2 ^ n := pow_le_pow_right₀ (by norm_num) hg.length_le
  have hle : ε + 3 * ((2 ^ g.qubits.length : ℕ) : ℝ) * δ ≤ ε + 3 * 2 ^ n * δ := by
    have := hτ.t_nonneg
    rw [cast_two_pow]; gcongr
  obtain ⟨r, h2, h3, -⟩ := Unitary.inverse_near (Nat.two_pow_pos _)
    (hτ.mono (Nat.pow_le_pow_right (by norm_num) hg.length_le)) hv.2 hg.unitary (hle.trans hlim)
  exact ⟨{ v with unitary := r }, by unfold invVal; rw [h2]; rfl, hv.1, h3.mono hle⟩

end


/-! ## Objects that stay as good as they were -/

/-- Every sequence of `w` on at most `N` qubits stands for the same gates in `w'`. -/
def DriftExt (N : ℕ) (δ ε : ℝ) (k : ℕ) (w w' : World) : Prop :=
  ∀ (t : ℕ) (o : SeqObj) (m : ℕ) (gs : List Gate) (prev : Option (List Gate)), w.seqs[t]? = some o → m ≤ N → DriftOk m δ ε k w.entries o gs prev →
    ∃ o', w'.seqs[t]? = some o' ∧ o'.isArray = o.isArray ∧ DriftOk m δ ε k w'.entries o' gs prev

section

variable {N n k : ℕ} {τ : Arith} {δ ε : ℝ} {w w' w'' : World} {s : ℕ} {o : SeqObj}

theorem DriftExt.refl : DriftExt N δ ε k w w := fun _ o _ _ _ h _ hd => ⟨o, h, rfl, hd⟩

theorem DriftExt.trans (h : DriftExt N δ ε k w w') (h' : DriftExt N δ ε k w' w'') : DriftExt N δ ε k w w'' := by
  intro t o m gs prev ho hm hd
  obtain ⟨o1, h1, h2, h3⟩ := h t o m gs prev ho hm hd
  obtain ⟨o2, h4, h5, h6⟩ := h' t o1 m gs prev h1 hm h3
  exact ⟨o2, h4, h5.trans h2, h6⟩

theorem DriftExt.of_prefix (hw : w.WF τ) (hg : Grow w.entries w'.entries)
    (h : ∀ t, t < w.seqs.length → w'.seqs[t]? = w.seqs[t]?) : DriftExt N δ ε k w w' := by
  intro t o m gs prev ho hm hd
  exact ⟨o, by rw [h t (List.getElem?_eq_some_iff.mp ho).1]; exact ho, rfl, hd.grow (hw.seq ho) hg⟩

theorem DriftExt.setNew (h : DriftExt N δ ε k w w') {t : ℕ} (ht : w.seqs.length ≤ t) (x : SeqObj) :
    DriftExt N δ ε k w { w' with seqs := w'.seqs.set t x } := by
  intro t' o m gs prev ho hm hd
  have hlt := (List.getElem?_eq_some_iff.mp ho).1
  obtain ⟨o1, h1, h2, h3⟩ := h t' o m gs prev ho hm hd
  refine ⟨o1, ?_, h2, h3⟩
  show (w'.seqs.set t x)[t']? = _
  rw [List.getElem?_set_ne (by omega)]; exact h1

theorem product_driftExt (hb : Budget N τ δ ε k) (hw : w.WF τ) (hs : w.seqs[s]? = some o) :
    Wp (Seq.product τ s) (fun _ w' => DriftExt N δ ε k w w') w := by
  have h1 := product_wp hw hs
  have h2 : Wp (Seq.product τ s) (fun res w' => ∀ x : (Σ' (m : ℕ) (gs : List Gate) (prev : Option (List Gate)),
      m ≤ N ∧ DriftOk m δ ε k w.entries o gs prev), ∃ o' p, ProductPost τ w s o res w' o' ∧ res = .ok p ∧
      p.Near (gateProduct x.1 x.2.1) (driftErr x.1 δ ε k) ∧ DriftOk x.1 δ ε k w'.entries o' x.2.1 x.2.2.1 ∧
      o'.product = some p) w :=
    fun x => product_drift x.2.2.2.2 (hb.dim' x.2.2.2.1) hw hs
  refine (h1.and h2).mono ?_
  rintro res w' ⟨⟨o1, hp⟩, h2⟩ t o' m gs prev ho hm hd
  by_cases ht : t = s
  · subst ht
    rw [hs] at ho; cases ho
    obtain ⟨o2, p, h3, -, -, h4, -⟩ := h2 ⟨m, gs, prev, hm, hd⟩
    exact ⟨o2, h3.step.get hs, h3.step.arr, h4⟩
  · exact ⟨o', by rw [hp.step.get_ne ht]; exact ho, rfl, hd.grow (hw.seq ho) hp.step.grow⟩

/-! ## `inverse` -/

theorem invertEntries_ok (rs : List ℕ) (w : World) (hnd : rs.Nodup)
    (h : ∀ r ∈ rs, ∃ (x : EntryObj) (v : EntryVal), w.entries[r]? = some x ∧ invVal τ x.toVal = .ok v) :
    Wp (Seq.invertEntries τ rs) (fun res _ => res = .ok ()) w := by
  induction rs generalizing w with
  | nil => exact Wp.pure rfl
  | cons r rs ih =>
    unfold Seq.invertEntries
    obtain ⟨x, v, hx, hv⟩ := h r (by simp)
    obtain ⟨hr, hnd'⟩ := List.nodup_cons.mp hnd
    unfold invVal at hv
    obtain ⟨u, hu, -⟩ := bind_eq_ok.mp hv
    refine Wp.getEntry_bind hx (Wp.lift_bind (fun u' hu' => ?_) fun err herr => ?_)
    · refine Wp.bind_ok rfl (ih _ hnd' fun r' hr' => ?_)
      obtain ⟨x', v', hx', hv'⟩ := h r' (by simp [hr'])
      refine ⟨x', v', ?_, hv'⟩
      have hne : r ≠ r' := fun he => hr (he ▸ hr')
      show (w.entries.set r _)[r']? = _
      rw [List.getElem?_set_ne hne]; exact hx'
    · rw [hu] at herr; cases herr

end

section

variable {N n k : ℕ} {τ : Arith} {δ ε : ℝ} {w w' : World} {s : ℕ} {o : SeqObj} {gs : List Gate} {prev : Option (List Gate)}

theorem realisesAll_invert {rs : List ℕ} {gs : List Gate} {f : ℕ → ℕ} {ε' : ℝ} {es es' : List EntryObj}
    (hrs : ∀ r ∈ rs, r < es.length) (h : RealisesAll ε (valsOf es rs) gs)
    (hi : ∀ r ∈ rs, ∀ x : EntryObj, es[r]? = some x → ∀ g ∈ gs, x.toVal.Realises g ε → ∃ x' : EntryObj,
      es'[f r]? = some x' ∧ x'.toVal.Realises g.dagger ε') :
    RealisesAll ε' (valsOf es' (rs.map f)) (gs.map Gate.dagger) := by
  induction rs generalizing gs with
  | nil =>
    cases gs with
    | nil => exact .nil
    | cons => have := h.length_eq; simp [valsOf_nil] at this
  | cons r rs ih =>
    have hr := List.getElem?_eq_getElem (hrs r (by simp))
    rw [valsOf_cons hr] at h
    cases gs with
    | nil => cases h
    | cons g gs =>
      cases h with
      | cons h1 h2 =>
        obtain ⟨x', h3, h4⟩ := hi r (by simp) _ hr g (by simp) h1
        rw [List.map_cons, List.map_cons, valsOf_cons h3]
        exact .cons h4 (ih (fun x hx => hrs x (by simp [hx])) h2 fun r hr x hx g hg =>
          hi r (by simp [hr]) x hx g (by simp [hg]))

theorem RealisesAll.get {rs : List ℕ} {es : List EntryObj} (hrs : ∀ r ∈ rs, r < es.length)
    (h : RealisesAll ε (valsOf es rs) gs) (r : ℕ) (hr : r ∈ rs) :
    ∃ x : EntryObj, es[r]? = some x ∧ ∃ g ∈ gs, x.toVal.Realises g ε := by
  induction rs generalizing gs with
  | nil => cases hr
  | cons a rs ih =>
    have ha := List.getElem?_eq_getElem (hrs a (by simp))
    rw [valsOf_cons ha] at h
    cases gs with
    | nil => cases h
    | cons g gs =>
      cases h with
      | cons h1 h2 =>
        rcases List.mem_cons.mp hr with rfl | hr
        · exact ⟨_, ha, g, by simp, h1⟩
        · obtain ⟨x, h3, g', h4, h5⟩ := ih (fun x hx => hrs x (by simp [hx])) h2 hr
          exact ⟨x, h3, g', by simp [h4], h5⟩

/-- What the call of `product` inside another operation returned. -/
theorem isProductOf_near (h : DriftOk n δ ε k w.entries o gs prev) (hb : Budget n τ δ ε k) {p : Unitary}
    (hp : IsProductOf τ w o p) : p.Near (gateProduct n gs) (driftErr n δ ε k) := by
  rcases hop : o.product with _ | q
  · obtain ⟨q, h1, h2⟩ := freshProduct_drift h.ents h.gok (hb.mono h.len)
    have h3 := hp.2 hop
    rw [h.dim, h1] at h3; cases h3
    exact h2.mono (driftErr_mono hb.t0 hb.eps h.len)
  · rw [hp.1 q hop]; exact h.prod q hop

/-- The call succeeds on list-backed sequences, and keeps all other objects as they were. -/
theorem inverse_runs (hb : Budget N τ δ (ε + 3 * 2 ^ N * δ) (k + 1)) (hε : 0 ≤ ε) (hn : n ≤ N) (hw : w.WF τ)
    (hs : w.seqs[s]? = some o) (h : DriftOk n δ ε k w.entries o gs prev) (hnd : o.entries.Nodup) :
    Wp (Seq.inverse τ s) (fun res w' => DriftExt N δ ε k w w' ∧ (o.isArray = false → ∃ t, res = .ok t)) w := by
  have hτ := hb.t0
  have hNτ := two_pow_tau_nonneg N hτ
  have hle : ε ≤ ε + 3 * 2 ^ N * δ := by linarith
  have hlim : ε + 3 * 2 ^ N * δ ≤ driftLimit := by
    refine le_trans ?_ hb.step
    unfold stepErr; linarith
  have hb1 : Budget N τ δ ε (k + 1) := hb.mono_eps hε hle
  have hbk : Budget N τ δ ε k := hb1.mono (Nat.le_succ k)
  have hbn : Budget n τ δ ε k := hbk.dim' hn
  have hslt := (List.getElem?_eq_some_iff.mp hs).1
  have hso := hw.seq hs
  unfold Seq.inverse
  refine Wp.getSeq_bind hs (Wp.bind ((getSequenceEntries_wp hw hs).mono ?_))
  rintro _ w1 ⟨rs1, rfl, ext1, hseq1, cop1⟩
  refine Wp.bind ((new_wp ext1.wf cop1.lt).mono ?_)
  rintro res2 w2 ⟨-, hnew⟩
  obtain ⟨rs2, rfl, ext2, hseq2, cop2⟩ := hnew (cop1.refs hso.entries)
  have ext12 := ext1.trans ext2
  rw [hseq1] at hseq2
  have hinv : w2.seqs[w1.seqs.length]? = some ⟨o.dimension, o.isArray, rs2, none, none, none⟩ := by
    rw [hseq2, hseq1, List.getElem?_append_right (le_refl _)]; simp
  have hget : ∀ t, t < w.seqs.length → w2.seqs[t]? = w.seqs[t]? := fun t ht => by
    rw [hseq2, List.getElem?_append_left ht]
  simp only
  refine Wp.getSeq_bind hinv ?_
  unfold Seq.requireList
  refine Wp.lift_bind (fun _ ha => ?_) fun err ha => ?_
  swap
  · have harr : o.isArray = true := by
      by_contra h
      rw [raiseUnless_of (by simpa using h)] at ha; cases ha
    exact ⟨.of_prefix hw ext12.grow hget, fun h => by rw [harr] at h; cases h⟩
  have harr : o.isArray = false := raiseUnless_eq_ok.mp ha
  refine Wp.setSeq_bind ?_
  rw [hseq1] at *
  simp only [harr]
  have hfresh : ∀ r ∈ rs2, w.entries.length ≤ r := fun r hr =>
    (by
      by_contra hlt
      push Not at hlt
      have h1 := cop2.fresh r hr
      obtain ⟨x', hx', -⟩ := ext1.grow r _ (List.getElem?_eq_getElem hlt)
      have := (List.getElem?_eq_some_iff.mp hx').1
      omega)
  have hrefs2 : RefsOk w2.entries o.dimension rs2 := cop2.refs (cop1.refs hso.entries)
  have hrev : RefsOk w2.entries o.dimension rs2.reverse := fun r hr => hrefs2 r (List.mem_reverse.mp hr)
  have hnd2 : rs2.reverse.Nodup := List.nodup_reverse.mpr (cop2.nodup (cop1.nodup hnd))
  set w3 : World := { w2 with seqs := w2.seqs.set w.seqs.length ⟨o.dimension, false, rs2.reverse, none, none, none⟩ }
    with hw3
  have ext3 : Ext τ w w3 := ext12.setNew (le_refl _) ⟨hrev, fun _ h => (by cases h)⟩
  have hget3 : ∀ t, t < w.seqs.length → w3.seqs[t]? = w.seqs[t]? := fun t ht => by
    rw [show w3.seqs = w2.seqs.set w.seqs.length _ from rfl, List.getElem?_set_ne (by omega), hget t ht]
  have hreal : RealisesAll ε (valsOf w2.entries rs2) gs := by rw [cop2.vals, cop1.vals]; exact h.ents
  have hivs : ∀ r ∈ rs2.reverse, ∃ (x : EntryObj) (v : EntryVal), w3.entries[r]? = some x ∧
      invVal τ x.toVal = .ok v := by
    intro r hr
    obtain ⟨x, h1, g, hg, h2⟩ := hreal.get cop2.lt r (List.mem_reverse.mp hr)
    have hnN : (2 : ℝ) ^ n ≤ 2 ^ N := pow_le_pow_right₀ (by norm_num) hn
    obtain ⟨v, h3, -⟩ := invVal_near (n := n) (hb.dim' hn).tau h2 (h.gok g hg) (le_trans (by gcongr) hlim)
    exact ⟨x, v, h1, h3⟩
  refine Wp.bind (((invertEntries_wp rs2.reverse w3 ext3.wf.entries
    (fun r hr => cop2.lt r (List.mem_reverse.mp hr))).and (invertEntries_ok rs2.reverse w3 hnd2 hivs)).mono ?_)
  rintro res4 w4 ⟨hi, rfl⟩
  have ext4 : Ext τ w w4 := ext3.invertNew (fun r hr => hfresh r (List.mem_reverse.mp hr)) hi
  have hseq4 : w4.seqs = w3.seqs := by rw [hi.eq]
  have hget4 : ∀ t, t < w.seqs.length → w4.seqs[t]? = w.seqs[t]? := fun t ht => by rw [hseq4, hget3 t ht]
  have hd4 : DriftExt N δ ε k w w4 := .of_prefix hw ext4.grow hget4
  simp only
  have hs4 : w4.seqs[s]? = some o := by rw [hget4 s hslt, hs]
  have hok4 := h.grow hso ext4.grow
  refine Wp.bind (((product_driftExt hbk ext4.wf hs4).and (product_drift hok4 hbn ext4.wf hs4)).mono ?_)
  rintro res5 w5 ⟨hd5, o5, p, hp, rfl, hpn, -, -⟩
  simp only
  obtain ⟨p', hp', -⟩ := Unitary.inverse_near (Nat.two_pow_pos n) (hb.dim' hn).tau hpn (gateProduct_mem h.gok) (by
    refine le_trans ?_ (hb1.dim' hn).lim
    rw [driftErr_succ, cast_two_pow]
    have h0 := driftErr_nonneg (n := n) (k := k) hτ hε
    have h1 := stepErr_nonneg (n := n) hτ hε
    have h2 : 3 * 2 ^ n * δ ≤ stepErr n δ ε := by unfold stepErr; linarith [two_pow_tau_nonneg n hτ]
    nlinarith [mul_nonneg h0 h1])
  refine Wp.lift_bind (fun p2 hp2 => ?_) fun err herr => ?_
  · exact Wp.setSeq_bind (Wp.pure ⟨(hd4.trans hd5).setNew (le_refl _) _, fun _ => ⟨_, rfl⟩⟩)
  · rw [hp'] at herr; cases herr

/-- The whole effect of `inverse` on a sequence without shared entry objects. -/
theorem inverse_drift (hb : Budget N τ δ (ε + 3 * 2 ^ N * δ) (k + 1)) (hε : 0 ≤ ε) (hn : n ≤ N) (hw : w.WF τ)
    (hs : w.seqs[s]? = some o) (h : DriftOk n δ ε k w.entries o gs prev) (hnd : o.entries.Nodup) :
    Wp (Seq.inverse τ s) (fun res w' => Ext τ w w' ∧ DriftExt N δ ε k w w' ∧
      (o.isArray = true → res = .error .attributeError) ∧
      (o.isArray = false → res = .ok w.seqs.length ∧ ∃ o', w'.seqs[w.seqs.length]? = some o' ∧ o'.isArray = false ∧
        o'.entries.Nodup ∧
        DriftOk n δ (ε + 3 * 2 ^ N * δ) (k + 1) w'.entries o' (gs.map Gate.dagger).reverse none)) w := by
  have hτ := hb.t0
  have hNτ := two_pow_tau_nonneg N hτ
  have hle : ε ≤ ε + 3 * 2 ^ N * δ := by linarith
  have hlim : ε + 3 * 2 ^ N * δ ≤ driftLimit := by
    refine le_trans ?_ hb.step
    unfold stepErr; linarith
  have hb1 : Budget N τ δ ε (k + 1) := hb.mono_eps hε hle
  have hbn : Budget n τ δ ε k := (hb1.mono (Nat.le_succ k)).dim' hn
  have hnN : (2 : ℝ) ^ n ≤ 2 ^ N := pow_le_pow_right₀ (by norm_num) hn
  have hlim' : ε + 3 * 2 ^ n * δ ≤ driftLimit := le_trans (by gcongr) hlim
  have hso := hw.seq hs
  refine ((inverse_wp hw hs).and (inverse_runs hb hε hn hw hs h hnd)).mono ?_
  rintro res w' ⟨hpost, hext, hok⟩
  refine ⟨hpost.ext, hext, hpost.array, fun harr => ?_⟩
  obtain ⟨t, rfl⟩ := hok harr
  obtain ⟨rfl, -, p, p', f, hobj, hp, hp', hinj, -, hinv⟩ := hpost.ok t rfl
  have hpn := isProductOf_near h hbn hp
  refine ⟨rfl, _, hobj, rfl, List.nodup_reverse.mpr (hnd.map_on fun a ha b hb => hinj a ha b hb), h.dim, ?_, ?_, ?_, ?_,
    .none, fun _ h => (by cases h), fun _ h => (by cases h), fun h => (by cases h)⟩
  · simp only
    rw [valsOf_reverse]
    refine List.rel_reverse (realisesAll_invert hso.entries.lt h.ents ?_)
    intro r hr x hx g hg hrg
    obtain ⟨x', h1, h2⟩ := hinv r x hr hx
    rw [List.count_eq_one_of_mem hnd hr] at h2
    obtain ⟨v1, h3, h4⟩ := h2
    obtain ⟨v2, h5, h6⟩ := invVal_near (hb.dim' hn).tau hrg (h.gok g hg) hlim'
    rw [h5] at h3; cases h3
    refine ⟨x', h1, ?_⟩
    rw [show x'.toVal = v1 from h4]
    exact ⟨h6.1, h6.2.mono (by gcongr)⟩
  · intro g hg
    rw [List.mem_reverse] at hg
    obtain ⟨g', hg', rfl⟩ := List.mem_map.mp hg
    exact (h.gok g' hg').dagger
  · have := h.len; simp; omega
  · intro q hq
    cases hq
    have h0 := driftErr_nonneg (n := n) (k := k) hτ hε
    have h1 := stepErr_nonneg (n := n) hτ hε
    have h2 : 3 * 2 ^ n * δ ≤ stepErr n δ ε := by unfold stepErr; linarith [two_pow_tau_nonneg n hτ]
    have h3 : driftErr n δ ε k + 3 * ((2 ^ n : ℕ) : ℝ) * δ ≤ driftErr n δ ε (k + 1) := by
      rw [driftErr_succ, cast_two_pow]
      nlinarith [mul_nonneg h0 h1]
    obtain ⟨q, h4, h5, -⟩ := Unitary.inverse_near (Nat.two_pow_pos n) (hb.dim' hn).tau hpn (gateProduct_mem h.gok)
      (h3.trans (hb1.dim' hn).lim)
    rw [hp'] at h4; cases h4
    rw [gateProduct_inverse]
    exact h5.mono (h3.trans (driftErr_mono_eps hτ hε hle))

/-! ## `combine` -/

/-- The sequences stand for the lists of gates. -/
def DriftSeqs (n : ℕ) (δ ε : ℝ) (k : ℕ) (w : World) (ss : List ℕ) (gss : List (List Gate)) : Prop :=
  List.Forall₂ (fun s gs => ∃ o prev, w.seqs[s]? = some o ∧ DriftOk n δ ε k w.entries o gs prev) ss gss

theorem DriftSeqs.ext {ss : List ℕ} {gss : List (List Gate)} (h : DriftSeqs n δ ε k w ss gss) (hn : n ≤ N)
    (he : DriftExt N δ ε k w w') : DriftSeqs n δ ε k w' ss gss := by
  refine List.Forall₂.imp ?_ h
  rintro s gs ⟨o, prev, h1, h2⟩
  obtain ⟨o', h3, -, h4⟩ := he s o n gs prev h1 hn h2
  exact ⟨o', prev, h3, h4⟩

theorem DriftSeqs.seqsOk {ss : List ℕ} {gss : List (List Gate)} (h : DriftSeqs n δ ε k w ss gss) :
    SeqsOk w (2 ^ n) ss := by
  intro s hs
  induction h with
  | nil => cases hs
  | cons h1 _ ih =>
    rcases List.mem_cons.mp hs with rfl | hs
    · obtain ⟨o, prev, h2, h3⟩ := h1
      exact ⟨o, h2, h3.dim⟩
    · exact ih hs

theorem DriftSeqs.vals {ss : List ℕ} {gss : List (List Gate)} (h : DriftSeqs n δ ε k w ss gss) :
    RealisesAll ε (flatVals w ss) gss.flatten ∧ (∀ g ∈ gss.flatten, g.Ok n) ∧ gss.flatten.length ≤ ss.length * k := by
  induction h with
  | nil => exact ⟨.nil, by simp, by simp⟩
  | @cons s gs ss gss h1 _ ih =>
    obtain ⟨o, prev, h2, h3⟩ := h1
    obtain ⟨i1, i2, i3⟩ := ih
    refine ⟨?_, ?_, ?_⟩
    · rw [flatVals_cons h2, List.flatten_cons]; exact h3.ents.append i1
    · intro g hg
      rw [List.flatten_cons] at hg
      rcases List.mem_append.mp hg with hg | hg
      · exact h3.gok g hg
      · exact i2 g hg
    · rw [List.flatten_cons, List.length_append, List.length_cons, Nat.add_mul, one_mul]
      have := h3.len
      omega

theorem driftErr_add' (a b : ℕ) : (1 + driftErr n δ ε a) * (1 + driftErr n δ ε b) = 1 + driftErr n δ ε (a + b) := by
  unfold driftErr; rw [pow_add]; ring

theorem combineLoop_drift {ss : List ℕ} {gss : List (List Gate)} (hn : n ≤ N) (j : ℕ) (es : List ℕ) (p : Unitary)
    {V : Matrix (Fin (2 ^ n)) (Fin (2 ^ n)) ℂ} (hV : V ∈ unitaryGroup (Fin (2 ^ n)) ℂ)
    (hb : Budget N τ δ ε (j + ss.length * (k + 1))) (hbk : Budget N τ δ ε k) (hw : w.WF τ)
    (h : DriftSeqs n δ ε k w ss gss) (hp : p.Near V (driftErr n δ ε j)) :
    Wp (Seq.combineLoop τ ss es p) (fun res w' => DriftExt N δ ε k w w' ∧ ∃ es' p', res = .ok (es', p') ∧
      p'.Near (gateProduct n gss.flatten * V) (driftErr n δ ε (j + ss.length * (k + 1)))) w := by
  have hτ := hb.t0
  have hε := hb.eps
  induction ss generalizing gss j es p V w with
  | nil =>
    cases h
    exact Wp.pure ⟨.refl, es, p, rfl, by simpa [gateProduct] using hp⟩
  | cons s ss ih =>
    cases h with
    | @cons _ gs _ gss h1 h2 =>
    obtain ⟨o, prev, hs, hd⟩ := h1
    unfold Seq.combineLoop
    have hso := hw.seq hs
    have hbn : Budget n τ δ ε k := hbk.dim' hn
    have hj : j + (s :: ss).length * (k + 1) = (j + k + 1) + ss.length * (k + 1) := by
      rw [List.length_cons]; ring
    rw [hj] at hb ⊢
    refine Wp.bind ((getSequenceEntries_wp hw hs).mono ?_)
    rintro _ w1 ⟨rs1, rfl, ext1, hseq1, cop1⟩
    have hs1 : w1.seqs[s]? = some o := by rw [hseq1]; exact hs
    have hd1 : DriftExt N δ ε k w w1 := .of_prefix hw ext1.grow fun t _ => by rw [hseq1]
    have hok1 := hd.grow hso ext1.grow
    simp only
    refine Wp.bind (((product_driftExt hbk ext1.wf hs1).and (product_drift hok1 hbn ext1.wf hs1)).mono ?_)
    rintro res2 w2 ⟨hd2, o2, q, hpp, rfl, hqn, -, -⟩
    simp only
    have hle : Unitary.mulErr (2 ^ n) δ (driftErr n δ ε k) (driftErr n δ ε j) ≤ driftErr n δ ε (j + k + 1) := by
      unfold Unitary.mulErr
      rw [mul_comm, driftErr_add', driftErr_succ, cast_two_pow]
      have h0 := driftErr_nonneg (n := n) (k := j + k) hτ hε
      have h1 := stepErr_nonneg (n := n) hτ hε
      have h2 : 3 * 2 ^ n * δ ≤ stepErr n δ ε := by unfold stepErr; linarith [two_pow_tau_nonneg n hτ]
      nlinarith [mul_nonneg h0 h1]
    obtain ⟨p', hp', hpn⟩ := Unitary.leftMultiply_near (Nat.two_pow_pos n) (hb.dim' hn).tau hp hqn hV (gateProduct_mem hd.gok)
      (hle.trans ((hb.mono (Nat.le_add_right _ _)).dim' hn).lim)
    refine Wp.lift_bind (fun p2 hp2 => ?_) fun err herr => ?_
    · rw [hp'] at hp2; cases hp2
      have hd12 := hd1.trans hd2
      have hwf2 : w2.WF τ := hpp.step.wf ext1.wf
      refine (ih (gss := gss) (j := j + k + 1) (es := es ++ rs1) (p := p') (mul_mem (gateProduct_mem hd.gok) hV)
        hb hwf2 (DriftSeqs.ext h2 hn hd12) (hpn.mono hle)).mono ?_
      rintro res w' ⟨h3, es', q', h4, h5⟩
      refine ⟨hd12.trans h3, es', q', h4, ?_⟩
      rw [List.flatten_cons, gateProduct_append, Matrix.mul_assoc]; exact h5
    · rw [hp'] at herr; cases herr

/-- The whole effect of `combine` on sequences of one dimension. -/
theorem combine_drift {ss : List ℕ} {gss : List (List Gate)} (hn : n ≤ N) (hne : ss ≠ [])
    (hb : Budget N τ δ ε (ss.length * (k + 1))) (hw : w.WF τ) (h : DriftSeqs n δ ε k w ss gss) :
    Wp (Seq.combine τ ss) (fun res w' => CombinePost τ w (2 ^ n) ss res w' ∧ DriftExt N δ ε k w w' ∧
      res = .ok w.seqs.length ∧ ∃ o', w'.seqs[w.seqs.length]? = some o' ∧ o'.isArray = false ∧
        (NodupSeqs w ss → o'.entries.Nodup) ∧
        DriftOk n δ ε (ss.length * (k + 1)) w'.entries o' gss.flatten none) w := by
  have hsd := h.seqsOk
  have hex : ∀ s ∈ ss, ∃ o, w.seqs[s]? = some o := fun s hs => by
    obtain ⟨o, h1, -⟩ := hsd s hs; exact ⟨o, h1⟩
  have hkey : Wp (Seq.combine τ ss) (fun res w' => DriftExt N δ ε k w w' ∧ ∃ t rs p, res = .ok t ∧
      w'.seqs[w.seqs.length]? = some ⟨2 ^ n, false, rs, some p, none, none⟩ ∧
      p.Near (gateProduct n gss.flatten) (driftErr n δ ε (ss.length * (k + 1)))) w := by
    have hlen : 0 < ss.length := List.length_pos_iff.mpr hne
    have hbk : Budget N τ δ ε k := hb.mono (by nlinarith)
    unfold Seq.combine
    rcases ss with _ | ⟨s0, ss0⟩
    · exact absurd rfl hne
    simp only
    obtain ⟨o0, ho0, hdim⟩ := hsd s0 (by simp)
    have hdim0 : Seq.getDimension s0 w = (.ok (2 ^ n), w) := by
      unfold Seq.getDimension
      rw [PyM.bind_of_ok (getSeq_some ho0), hdim]; rfl
    refine Wp.bind_ok hdim0 ?_
    generalize hall : s0 :: ss0 = ss at *
    refine Wp.bind_ok ((forM_dims (D := 2 ^ n) hex).1 hsd) ?_
    obtain ⟨p0, h1, h2⟩ := Unitary.identity_near (d := 2 ^ n) (Nat.two_pow_pos n) (hb.dim' hn).tau hb.tau1 (some "I")
    suffices hgoal : Wp (PyM.lift (Unitary.identity τ (2 ^ n)) >>= fun p0 =>
        Seq.combineLoop τ ss [] p0 >>= fun x => Seq.new (2 ^ n) false x.1 >>= fun res =>
        getSeq res >>= fun r => setSeq res { r with product := some x.2 } >>= fun _ => pure res)
        (fun res w' => DriftExt N δ ε k w w' ∧ ∃ t rs p, res = .ok t ∧
          w'.seqs[w.seqs.length]? = some ⟨2 ^ n, false, rs, some p, none, none⟩ ∧
          p.Near (gateProduct n gss.flatten) (driftErr n δ ε (ss.length * (k + 1)))) w from hgoal
    refine Wp.lift_bind (fun p1 hp1 => ?_) fun err herr => ?_
    · have hp1n : p1.Near (1 : Matrix (Fin (2 ^ n)) (Fin (2 ^ n)) ℂ) (driftErr n δ ε 0) := by
        have : p1 = p0 := by
          unfold Unitary.identity at hp1
          rw [h1] at hp1; cases hp1; rfl
        rw [this]; simpa [driftErr] using h2
      refine Wp.bind (((combineLoop_wp ss [] p1 w hw hsd).and
        (combineLoop_drift hn 0 [] p1 (one_mem _) (by simpa using hb) hbk hw h hp1n)).mono ?_)
      rintro _ w1 ⟨hpost, hd1, es', p', rfl, hpn⟩
      simp only
      obtain ⟨new, rfl, hvals, hrefs, hfresh, hnodup⟩ := hpost.ok _ _ rfl
      refine Wp.bind ((new_wp hpost.ext.wf hrefs.lt).mono ?_)
      rintro res2 w2 ⟨-, hnew⟩
      obtain ⟨rs2, rfl, ext2, hseq2, cop2⟩ := hnew hrefs
      have hinv : w2.seqs[w1.seqs.length]? = some ⟨2 ^ n, false, rs2, none, none, none⟩ := by
        rw [hseq2, List.getElem?_append_right (le_refl _)]; simp
      simp only
      refine Wp.getSeq_bind hinv (Wp.setSeq_bind (Wp.pure ?_))
      have hlen1 := hpost.len
      have hd2 : DriftExt N δ ε k w1 w2 := .of_prefix hpost.ext.wf ext2.grow fun t ht => by
        rw [hseq2, List.getElem?_append_left ht]
      refine ⟨(hd1.trans hd2).setNew (by omega) _, w1.seqs.length, rs2, p', rfl, ?_, by simpa using hpn⟩
      rw [← hlen1]
      exact List.getElem?_set_self (by rw [hseq2]; simp)
    · unfold Unitary.identity at herr
      rw [h1] at herr; cases herr
  refine ((combine_wp hw hex).and hkey).mono ?_
  rintro res w' ⟨⟨-, h1⟩, h2, t, rs, p, rfl, hobj, hpn⟩
  have hpost := h1 (2 ^ n) hne hsd
  obtain ⟨rfl, rs', p', hobj', hvals, -, hnd⟩ := hpost.ok t rfl
  rw [hobj] at hobj'; cases hobj'
  obtain ⟨v1, v2, v3⟩ := h.vals
  refine ⟨hpost, h2, rfl, _, hobj, rfl, hnd, rfl, ?_, v2, v3.trans (Nat.mul_le_mul_left _ (Nat.le_succ k)), ?_,
    .none, fun _ h => (by cases h), fun _ h => (by cases h), fun h => (by cases h)⟩
  · simp only; rw [hvals]; exact v1
  · intro q hq; cases hq; exact hpn

end

end Stoq
