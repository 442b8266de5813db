import Verif.Proofs.DriftCompile
import Verif.Proofs.DriftInverse
import Verif.Proofs.Rav

/-! # Verification sequences with the clean-up of small matrix entries and rounding -/

namespace Stoq

open World Compiler Matrix

variable {n k c : ℕ} {τ : Arith} {t ε : ℝ} {ι : EntryVal → Gate}

theorem appendAll_near {s : ℕ} (rs : List ℕ) {w : World} {o : SeqObj} (hw : w.WF τ)
    (hs : w.seqs[s]? = some o) (ha : o.isArray = false) (hrs : ∀ r ∈ rs, r < w.entries.length)
    (hι : ∀ v ∈ valsOf w.entries rs, (ι v).Ok n ∧ v.Realises (ι v) ε) (h : Ideal n t ε k ι w.entries o)
    (hb : Budget n τ t ε (k + rs.length)) :
    Wp (Verification.appendAll τ s rs) (NearlyOk n t ε ι s (k + rs.length)) w := by
  induction rs generalizing w o k with
  | nil => exact Wp.pure ⟨rfl, o, hs, h⟩
  | cons e rs ih =>
    unfold Verification.appendAll
    have he := List.getElem?_eq_getElem (hrs e (by simp))
    have hrs' : ∀ r ∈ rs, r < w.entries.length := fun r hr => hrs r (by simp [hr])
    generalize w.entries[e]'(hrs e (by simp)) = x at he
    obtain ⟨⟨hx1, hx2⟩, hι'⟩ := valsOf_mem_fits he hι
    have hb' : Budget n τ t ε (k + 1 + rs.length) := by
      rw [show k + 1 + rs.length = k + (e :: rs).length by simp; omega]; exact hb
    refine Wp.bind ((appendLast_drift h (hb'.mono (by omega)) hw hs he hx2 hx1 true).mono ?_)
    rintro res w1 ⟨o1, hpost, hd0, -⟩
    obtain ⟨rfl, hd⟩ := hd0 ha
    have hfit : FitsDim x.toVal o.dimension := by rw [h.dim]; exact (hx2.wf hx1).fitsDim (hx2.fits hx1)
    have hm := (hpost.accept hfit).1 ha
    have hlt : ∀ r ∈ rs, r < w1.entries.length := by
      intro r hr
      obtain ⟨y, hy, -⟩ := hm.step.grow r _ (List.getElem?_eq_getElem (hrs' r hr))
      exact (List.getElem?_eq_some_iff.mp hy).1
    have hvo : valsOf w1.entries o1.entries = valsOf w.entries o.entries ++ [x.toVal] := by
      obtain ⟨y, hy, hyv⟩ := hm.step.grow e x he
      rw [hm.ok rfl, valsOf_append, valsOf_cons hy, hyv, (hw.seq hs).entries.vals_grow hm.step.grow]; rfl
    have hd' := hd
    rw [show (valsOf w.entries o.entries).map ι ++ [ι x.toVal] = (valsOf w.entries o.entries ++ [x.toVal]).map ι by simp]
      at hd'
    have := ih (hm.step.wf hw) (hm.step.get hs) (hm.step.arr.trans ha) hlt
      (by rw [valsOf_grow hrs' hm.step.grow]; exact hι') (hm.ideal rfl hvo hd') hb'
    rw [show k + 1 + rs.length = k + (e :: rs).length by simp; omega] at this
    exact this

/-- Whenever `random` yields gates, `fill` does not fail and keeps the products close, each gate counting as one
operation. -/
def FillNear (n : ℕ) (τ : Arith) (t ε : ℝ) (ι : EntryVal → Gate) (fill : ℕ → PyM World Unit) (random : PyM Rng (List EntryVal)) :
    Prop :=
  ∀ (w : World) (s k : ℕ) (o : SeqObj) (vs : List EntryVal) (r : Rng), w.WF τ → w.seqs[s]? = some o → o.isArray = false →
    Ideal n t ε k ι w.entries o → random w.rng = (.ok vs, r) → Budget n τ t ε (k + vs.length) →
    Wp (fill s) (NearlyOk n t ε ι s (k + vs.length)) w

theorem FillNear.nil : FillNear n τ t ε ι (fun _ => pure ()) (pure []) := by
  intro w s k o vs r hw hs ha h hr hb
  cases hr
  exact Wp.pure ⟨rfl, o, hs, h⟩

theorem FillNear.raise (e : PyErr) : FillNear n τ t ε ι (fun _ => PyM.raise e) (PyM.raise e) := by
  intro w s k o vs r hw hs ha h hr hb
  cases hr

theorem FillNear.withRng {α : Type} {x : PyM Rng α} {fill : α → ℕ → PyM World Unit}
    {random : α → PyM Rng (List EntryVal)} (h : ∀ a r r', x r = (.ok a, r') → FillNear n τ t ε ι (fill a) (random a)) :
    FillNear n τ t ε ι (fun s => World.withRng x >>= fun a => fill a s) (x >>= random) := by
  intro w s k o vs r hw hs ha hi hr hb
  rw [PyM.bind_eq_ok_iff] at hr
  obtain ⟨a, r1, hx, hr⟩ := hr
  have h1 : World.withRng x w = (.ok a, { w with rng := r1 }) := by
    unfold World.withRng PyM.zoom; rw [hx]
  exact Wp.bind_ok h1 (h a _ _ hx { w with rng := r1 } s k o vs r ⟨hw.entries, hw.seqs⟩ hs ha hi hr hb)

theorem FillNear.block {mk : PyM World (List ℕ)} {fresh random : PyM Rng (List EntryVal)}
    {G : EntryVal → Prop} {fill : ℕ → PyM World Unit} (hmk : MkOk G mk fresh)
    (hG : ∀ v, G v → (ι v).Ok n ∧ v.Realises (ι v) ε) (hfill : FillNear n τ t ε ι fill random) :
    FillNear n τ t ε ι (fun s => do let rs ← mk; Verification.appendAll τ s rs; fill s)
      (do let b ← fresh; let rest ← random; return b ++ rest) := by
  intro w s k o vs r hw hs ha h hr hb
  rw [PyM.bind_eq_ok_iff] at hr
  obtain ⟨b, r1, hf, hr⟩ := hr
  rw [PyM.bind_eq_ok_iff] at hr
  obtain ⟨rest, r2, hr, hr'⟩ := hr
  cases hr'
  rw [List.length_append] at hb ⊢
  refine Wp.bind ((hmk w).mono ?_)
  rintro res w1 ⟨⟨l, rfl, hl⟩, hres⟩
  rw [hf] at hres
  obtain ⟨rs, rfl, h2, h3, h4⟩ := hres
  simp only [hf] at h2 h3 ⊢
  have hw1 := addEntries_wf hw hl r1
  have hrl : rs.length = b.length := by rw [← h3, valsOf_eq_map h2, List.length_map]
  have hw1s : ({ w with entries := w.entries ++ l, rng := r1 } : World).seqs[s]? = some o := hs
  refine Wp.bind (((appendAll_near rs hw1 hw1s ha h2
      (by simp only; rw [h3]; exact fun v hv => hG v (h4 v hv)) (h.grow (hw.seq hs) (.append _ _))
      (hb.mono (by omega))).and (appendAll_wp rs _ o hw1 hw1s ha h2)).mono ?_)
  rintro res w2 ⟨⟨rfl, o2, hs2, hi2⟩, o2', hadd⟩
  have hs2' := hadd.step.get hw1s
  rw [hs2] at hs2'; cases hs2'
  simp only
  have := hfill w2 s (k + rs.length) o2 rest r (hadd.step.wf hw1) hs2 (hadd.step.arr.trans ha) hi2
    (by rw [hadd.step.rng]; exact hr) (hb.mono (by omega))
  rw [hrl, Nat.add_assoc] at this
  exact this

theorem fillNear_blocks {mk : PyM World (List ℕ)} {fresh : PyM Rng (List EntryVal)} {G : EntryVal → Prop}
    (hmk : MkOk G mk fresh) (hG : ∀ v, G v → (ι v).Ok n ∧ v.Realises (ι v) ε) (k : ℕ) :
    FillNear n τ t ε ι (fun s => appendBlocks τ mk s k) (Rav.blocks fresh k) := by
  induction k with
  | zero => exact .nil
  | succ k ih => exact .block hmk hG ih

/-! ## The whole function -/

/-- `comp` makes a compiler and compiles with it; costs are measured up to an error. -/
def CompNear (n : ℕ) (τ : Arith) (t ε : ℝ) (ι : EntryVal → Gate) (K : ℕ) (prop : List EntryVal → PyM Rng (List EntryVal))
    (rate cap : ℝ) (threshold : Option ℝ) (m : ℤ) (comp : Unitary → PyM World CompilerResult) : Prop :=
  ∀ (w : World) (target : Unitary) (T : Matrix (Fin (2 ^ n)) (Fin (2 ^ n)) ℂ) (δ : ℝ), w.WF τ →
    T ∈ unitaryGroup (Fin (2 ^ n)) ℂ → target.Near T δ → δ + 3 * 2 ^ n * t ≤ driftLimit →
    Wp (comp target) (fun res w' => ∃ R o' b', res = .ok R ∧ w'.seqs[R.sequence]? = some o' ∧
      Ideal n t ε K ι w'.entries o' ∧
      Metropolis.NearRun (Metropolis.idealCost n T ι) (costErr n t ε δ K) threshold rate cap prop m.toNat [] 0 w.rng
        R.costByStep (valsOf w'.entries o'.entries) b' w'.rng) w

/-- Outcome of the whole function. -/
def RavNear (n : ℕ) (t ε E : ℝ) (ι : EntryVal → Gate) (prop : List EntryVal → PyM Rng (List EntryVal)) (rate cap : ℝ)
    (threshold : Option ℝ) (skip : Prop) (m : ℤ) (K : ℕ) (pre : List EntryVal) (r1 : Rng)
    (res : Except PyErr CompilerResult) (w' : World) : Prop :=
  ∃ R o' gates b', res = .ok R ∧ w'.seqs[R.sequence]? = some o' ∧ valsOf w'.entries o'.entries = pre ++ gates ∧
    Ideal n t ε K ι w'.entries o' ∧
    (skip → gates = [] ∧ R.costByStep = [] ∧ w'.rng = r1) ∧
    (¬ skip → Metropolis.NearRun (Metropolis.idealCost n (gateProduct n (pre.map ι))ᴴ ι) E threshold rate cap prop
      m.toNat [] 0 r1 R.costByStep gates b' w'.rng)

theorem Metropolis.NearRun.mono {cost : List EntryVal → ℝ} {E E' : ℝ} {threshold : Option ℝ} {rate cap : ℝ}
    {proposal : List EntryVal → PyM Rng (List EntryVal)} {k : ℕ} {g g' : List EntryVal} {b b' : ℝ} {r r' : Rng}
    {costs : List ℝ} (h : NearRun cost E threshold rate cap proposal k g b r costs g' b' r') (hE : E ≤ E') :
    NearRun cost E' threshold rate cap proposal k g b r costs g' b' r' := by
  induction h with
  | stop c h1 h2 => exact .stop c (h1.trans hE) h2
  | out => exact .out
  | accept c x y h1 h2 h3 h4 h5 h6 _ ih => exact .accept c x y (h1.trans hE) h2 h3 (h4.trans hE) (h5.trans hE) h6 ih
  | reject c x y h1 h2 h3 h4 h5 h6 _ ih => exact .reject c x y (h1.trans hE) h2 h3 (h4.trans hE) (h5.trans hE) h6 ih

theorem costErr_mono {δ : ℝ} {j : ℕ} (hτ : 0 ≤ t) (hε : 0 ≤ ε) (hδ : 0 ≤ δ) (h : j ≤ k) :
    costErr n t ε δ j ≤ costErr n t ε δ k := by
  unfold costErr
  have h1 := driftErr_mono (n := n) hτ hε (Nat.add_le_add_right h 1)
  have h2 := two_pow_tau_nonneg n hτ
  nlinarith

theorem ravWith_near {G G' : EntryVal → Prop} {fill : ℕ → PyM World Unit} {random : PyM Rng (List EntryVal)}
    (hfill : FillOk τ G fill random) (hnear : FillNear n τ t ε ι fill random)
    {prop : List EntryVal → PyM Rng (List EntryVal)} {rate cap : ℝ} {D : ℕ}
    {threshold : Option ℝ} {m : ℤ} {T : Prop} {comp : Unitary → PyM World CompilerResult}
    (hcomp : CompOk τ G' prop rate cap D threshold m T comp) (hT : T) {a K : ℕ}
    (hcn : CompNear n τ t ε ι K prop rate cap threshold m comp) (hD : D = 2 ^ n)
    (skip : Prop) {w : World} (hw : w.WF τ) {pre : List EntryVal} {r1 : Rng} (hr : random w.rng = (.ok pre, r1))
    (ha : pre.length ≤ a) (haK : a ≤ K) (hb : Budget n τ t ε (2 * (K + 1))) :
    Wp (ravWith τ D fill skip comp) (RavNear n t ε (costErr n t ε (driftErr n t ε (a + 1)) K) ι prop rate cap threshold
      skip m (2 * (K + 1)) pre r1) w := by
  unfold ravWith
  refine Wp.bind ((new_wp hw (rs := []) (by simp)).mono ?_)
  rintro res w1 ⟨-, h⟩
  obtain ⟨rs', rfl, hext, hseqs, hcop⟩ := h (by intro r hr; simp at hr)
  have hrs : rs' = [] := by
    obtain ⟨f, hf, -⟩ := hcop.count
    simpa using hf
  subst hrs
  simp only
  have hs1 : w1.seqs[w.seqs.length]? = some ⟨D, false, [], none, none, none⟩ := by
    rw [hseqs]; simp
  have h0 : Ideal n t ε 0 ι w1.entries ⟨D, false, [], none, none, none⟩ :=
    ⟨hD, .nil, by simp, by simp, by simp, .none, by simp, by simp, by simp⟩
  refine Wp.bind (((hfill w1 _ _ hext.wf hs1 rfl).and (hnear w1 _ 0 _ pre r1 hext.wf hs1 rfl h0
    (by rw [hext.rng]; exact hr) (hb.mono (by omega)))).mono ?_)
  rintro res w2 ⟨⟨o2, hf⟩, rfl, o2', hs2, hi2⟩
  rw [hf.get] at hs2; cases hs2
  simp only
  rw [Nat.zero_add] at hi2
  obtain ⟨pre', hb', hv2⟩ := hf.ok rfl
  rw [hext.rng, hr] at hb'
  obtain ⟨rfl, hr2⟩ : pre = pre' ∧ r1 = w2.rng := by
    have := Prod.ext_iff.mp hb'
    exact ⟨Except.ok.inj this.1, this.2⟩
  have hv2 : valsOf w2.entries o2.entries = pre := by rw [hv2]; simp
  by_cases hskip : skip
  · rw [if_pos hskip]
    exact Wp.pure ⟨_, o2, [], 0, rfl, hf.get, by rw [hv2]; simp, hi2.mono hb.t0 hb.eps (by omega),
      fun _ => ⟨rfl, rfl, hr2.symm⟩, fun h => absurd hskip h⟩
  rw [if_neg hskip]
  have hba : Budget n τ t ε pre.length := hb.mono (by omega)
  refine Wp.bind ((product_near hi2 hba hf.wf hf.get).mono ?_)
  rintro res w3 ⟨o3, p, hp, rfl, hpn, hi3, -, hv3⟩
  rw [hv2] at hpn hv3
  simp only
  have hw3 := hp.step.wf hf.wf
  have hs3 := hp.step.get hf.get
  have hmem : gateProduct n (pre.map ι) ∈ unitaryGroup (Fin (2 ^ n)) ℂ := by rw [← hv2]; exact hi2.mem
  have hadd : ∀ j, j + 1 ≤ 2 * (K + 1) → driftErr n t ε j + 3 * 2 ^ n * t ≤ driftErr n t ε (j + 1) := fun j hj =>
    driftErr_add (hb.mono hj)
  obtain ⟨target, ht1, ht2, -⟩ := Unitary.inverse_near (Nat.two_pow_pos n) hb.tau hpn hmem (by
    rw [cast_two_pow]
    exact (hadd _ (by omega)).trans (hb.mono (show pre.length + 1 ≤ 2 * (K + 1) by omega)).lim)
  have ht3 : target.Near (gateProduct n (pre.map ι))ᴴ (driftErr n t ε (a + 1)) := by
    refine ht2.mono ?_
    rw [cast_two_pow]
    exact (hadd _ (by omega)).trans (driftErr_mono hb.t0 hb.eps (by omega))
  refine Wp.lift_bind (fun target' htgt => ?_) fun err herr => ?_
  swap
  · rw [ht1] at herr; cases herr
  rw [ht1] at htgt; cases htgt
  obtain ⟨hc1, -⟩ := hcomp w3 target hw3
  obtain ⟨C, hCD, hCr, hCc, hCs, hcp⟩ := hc1 hT
  have hcn' := hcn w3 target _ _ hw3 (_root_.Unitary.star_mem hmem) ht3 ?_
  swap
  · by_cases hK : a + 2 ≤ 2 * (K + 1)
    · exact (hadd _ hK).trans (hb.mono hK).lim
    · omega
  rw [Wp] at hcn'
  rcases hcall : comp target w3 with ⟨res, w4⟩
  rw [hcall] at hcp hcn'
  obtain ⟨R, o4, b', e1, hs4, hi4, hrun⟩ := hcn'
  simp only at e1
  subst e1
  simp only at hs4 hi4 hrun
  refine Wp.bind_ok hcall ?_
  have hs4' : w4.seqs[w.seqs.length]? = some o3 := by
    rw [hcp.others _ (List.getElem?_eq_some_iff.mp hs3).1]; exact hs3
  have hi3' : Ideal n t ε K ι w4.entries o3 :=
    (hi3.grow (hw3.seq hs3) hcp.grow).mono hb.t0 hb.eps (by omega)
  have hds : DriftSeqs n t ε K w4 [w.seqs.length, R.sequence]
      [(valsOf w4.entries o3.entries).map ι, (valsOf w4.entries o4.entries).map ι] :=
    .cons ⟨o3, _, hs4', hi3'⟩ (.cons ⟨o4, _, hs4, hi4⟩ .nil)
  refine Wp.bind ((combine_drift (le_refl n) (by simp) (by simpa using hb) hcp.wf hds).mono ?_)
  rintro res w5 ⟨hcmb, -, rfl, o5, hs5, -, -, hd5⟩
  have hflat : flatVals w4 [w.seqs.length, R.sequence] = pre ++ valsOf w4.entries o4.entries := by
    rw [flatVals_cons hs4', flatVals_cons hs4, (hw3.seq hs3).entries.vals_grow hcp.grow, hv3]
    simp [flatVals]
  obtain ⟨-, rs, p5, hs5', hv5, -⟩ := hcmb.ok _ rfl
  rw [hs5] at hs5'; cases hs5'
  rw [hflat] at hv5
  refine Wp.pure ⟨_, _, valsOf w4.entries o4.entries, b', rfl, hs5, hv5, ?_, fun h => absurd h hskip, fun _ => ?_⟩
  · unfold Ideal
    simp only
    rw [hv5]
    have h3 : valsOf w4.entries o3.entries = pre := by rw [(hw3.seq hs3).entries.vals_grow hcp.grow, hv3]
    rw [h3] at hd5
    simpa using hd5
  · rw [hcmb.ext.rng, hr2, ← hp.step.rng]
    exact hrun

/-! ## The compilers of the two functions -/

theorem newCompile_near (hd : DrawOk n τ t ε) {prims : List Primitive} {arr : Bool} {probs : Option (List ℝ)} {p : ℝ}
    (hprims : ∀ q ∈ prims, q.Nearly n t ε) (hch : ChoiceOk prims probs) (hp : 0 ≤ p ∧ p ≤ 1)
    (hT : CompilerUsable (2 ^ n) prims arr) (hι : IdealFor τ n prims ε ι) (threshold : Option ℝ) (m : ℤ) {K : ℕ}
    (hK : m.toNat ≤ K) (hb : Budget n τ t ε (K + 1)) :
    CompNear n τ t ε ι K ((ravCompiler (2 ^ n) prims arr probs p 0).proposal τ) 0.1 (((2 : ℝ) ^ 2 ^ n) ^ 2) threshold m
      (newCompile τ (2 ^ n) prims arr probs p threshold m) := by
  intro w target T δ hw hT' ht hδ
  have hw' : ({ w with betas := w.betas ++ [0] } : World).WF τ := ⟨hw.entries, hw.seqs⟩
  have hnew := new_compiler_ok arr probs p 0.1 hT.1.1 hT.1.2 w
  have hcall : newCompile τ (2 ^ n) prims arr probs p threshold m target w =
      (ravCompiler (2 ^ n) prims arr probs p w.betas.length).compile τ target threshold m
        { w with betas := w.betas ++ [0] } := by
    unfold newCompile
    rw [PyM.bind_of_ok hnew]
    rfl
  rw [Wp, hcall]
  generalize hC : ravCompiler (2 ^ n) prims arr probs p w.betas.length = C
  have hCD : C.dimension = 2 ^ n := by rw [← hC]; rfl
  have hprop : (ravCompiler (2 ^ n) prims arr probs p 0).proposal τ = C.proposal τ := by rw [← hC]; rfl
  have := compileWith_near (makeRandomChange_refines τ C)
    (makeRandomChange_near (ι := ι) hd hCD (by rw [← hC]; exact hprims) (by rw [← hC]; exact hch) (by rw [← hC]; exact hp)
      (by rw [← hC]; exact hι)) hT' ht hδ threshold m (by rw [one_mul]; exact hb.mono (by omega)) hCD hw'
      (b := 0) (by rw [← hC]; simp [ravCompiler])
  rw [one_mul] at this
  rw [compile_eq (by rw [← hC]; exact ⟨hT.2.1, hT.2.2⟩)]
  obtain ⟨R, o', b', e1, -, -, e4, -, -, e7, e8⟩ := this
  refine ⟨R, o', b', e1, e4, e7.mono hb.t0 hb.eps hK, ?_⟩
  rw [hprop, ← show C.annealingRate = 0.1 by rw [← hC]; rfl,
    ← show C.maxBeta = ((2 : ℝ) ^ 2 ^ n) ^ 2 by rw [← hC]; rfl]
  exact e8.mono (costErr_mono hb.t0 hb.eps ht.nonneg hK)

theorem newCompileLayered_near (hd : DrawOk n τ t ε) {counts : List (Primitive × ℤ)} {p : ℝ}
    (hprims : ∀ pc ∈ counts, pc.1.Nearly n t ε) (hus : ∀ pc ∈ counts, 0 < pc.2 → pc.1.allowedApplyTo ≠ some [])
    (hp : 0 ≤ p ∧ p ≤ 1) (hT : 0 < 2 ^ n ∧ ∀ pc ∈ counts, pc.1.getDimension ≤ 2 ^ n)
    (hι : IdealFor τ n (counts.map Prod.fst) ε ι) (threshold : Option ℝ) (m : ℤ) {K : ℕ}
    (hK : (counts.map fun pc => pc.2.toNat).sum * m.toNat ≤ K) (hb : Budget n τ t ε (K + 1)) :
    CompNear n τ t ε ι K ((ravCompiler (2 ^ n) (counts.map (·.1)) false none p 0).layeredProposal τ counts) 0.1
      (((2 : ℝ) ^ 2 ^ n) ^ 2) threshold m (newCompileLayered τ (2 ^ n) counts p threshold m) := by
  intro w target T δ hw hT' ht hδ
  have hw' : ({ w with betas := w.betas ++ [0] } : World).WF τ := ⟨hw.entries, hw.seqs⟩
  have hnew := new_compiler_ok (prims := counts.map (·.1)) false none p 0.1 hT.1 (by simpa using hT.2) w
  have hcall : newCompileLayered τ (2 ^ n) counts p threshold m target w =
      (ravCompiler (2 ^ n) (counts.map (·.1)) false none p w.betas.length).compileLayered τ target counts threshold m
        { w with betas := w.betas ++ [0] } := by
    unfold newCompileLayered
    rw [PyM.bind_of_ok hnew]
    rfl
  rw [Wp, hcall]
  generalize hC : ravCompiler (2 ^ n) (counts.map (·.1)) false none p w.betas.length = C
  have hCD : C.dimension = 2 ^ n := by rw [← hC]; rfl
  have hprop : (ravCompiler (2 ^ n) (counts.map (·.1)) false none p 0).layeredProposal τ counts =
    C.layeredProposal τ counts := by rw [← hC]; rfl
  have := compileWith_near (makeRandomChangeLayered_refines τ C counts)
    (makeRandomChangeLayered_near (ι := ι) hd hCD hprims hus (by rw [← hC]; exact hp) hι) hT' ht hδ threshold m
      (hb.mono (by omega)) hCD hw' (b := 0) (by rw [← hC]; simp [ravCompiler])
  obtain ⟨R, o', b', e1, -, -, e4, -, -, e7, e8⟩ := this
  refine ⟨R, o', b', e1, e4, e7.mono hb.t0 hb.eps hK, ?_⟩
  rw [hprop, ← show C.annealingRate = 0.1 by rw [← hC]; rfl,
    ← show C.maxBeta = ((2 : ℝ) ^ 2 ^ n) ^ 2 by rw [← hC]; rfl]
  exact e8.mono (costErr_mono hb.t0 hb.eps ht.nonneg hK)

end Stoq
