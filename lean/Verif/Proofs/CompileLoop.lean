import Verif.Proofs.Compile
import Verif.Proofs.Overlap

/-! # The `while` loop of the compiler -/

namespace Stoq

open World Compiler

/-! ## The test for being close -/

/-- Outcome of the test for being close to the target. -/
structure ClosePost (τ : Arith) (target : Unitary) (threshold : Option ℝ) (w : World) (s : ℕ) (o : SeqObj)
    (res : Except PyErr Bool) (w' : World) (o' : SeqObj) : Prop where
  step : Step τ w w' s o o'
  same : SameButProd o o'
  again : ∀ b, res = .ok b → isClose τ target threshold s w' = (.ok b, w')
  exact : ∀ n, Exact0 τ n w o → target.Exact (2 ^ n) → Exact0 τ n w' o' ∧
    res = .ok (open Classical in decide (Metropolis.GoodEnough threshold
      (Metropolis.cost n (target.matrix.toMatrix (2 ^ n)) (valsOf w.entries o.entries))))

theorem closeTo_goodEnough {p target : Unitary} {n : ℕ} {gates : List EntryVal} (threshold : Option ℝ)
    (hp : p.Exact (2 ^ n)) (ht : target.Exact (2 ^ n)) (hm : p.matrix.toMatrix (2 ^ n) = circuit n gates) :
    p.closeTo 0 target threshold = .ok (open Classical in decide (Metropolis.GoodEnough threshold
      (Metropolis.cost n (target.matrix.toMatrix (2 ^ n)) gates))) := by
  rcases threshold with _ | t
  · rw [Unitary.closeTo_none_eq hp ht, hm, overlap_comm]
    norm_num [Metropolis.GoodEnough, Metropolis.cost]
  · rw [Unitary.closeTo_some_eq hp ht, hm, overlap_comm]
    simp only [Metropolis.GoodEnough, Metropolis.cost]
    congr 2
    exact propext ⟨fun h => by linarith, fun h => by linarith⟩

theorem isClose_wp {τ : Arith} (target : Unitary) (threshold : Option ℝ) {w : World} {s : ℕ} {o : SeqObj}
    (hw : w.WF τ) (hs : w.seqs[s]? = some o) :
    Wp (isClose τ target threshold s) (fun res w' => ∃ o', ClosePost τ target threshold w s o res w' o') w := by
  unfold isClose
  refine Wp.bind ((product_wp hw hs).mono ?_)
  rintro res w1 ⟨o1, hp⟩
  rcases res with err | p
  · refine ⟨o1, hp.step, hp.same, fun b h => (by cases h), fun n hx _ => ?_⟩
    obtain ⟨p, h, -⟩ := hp.exact n hx; cases h
  · have hw1 := hp.step.wf hw
    have hs1 := hp.step.get hs
    have hag : Seq.product τ s w1 = (.ok p, w1) := by
      have h := product_wp hw1 hs1
      rw [Wp] at h
      obtain ⟨o2, h2⟩ := h
      obtain ⟨e1, e2⟩ := h2.cached p (hp.stored p rfl)
      exact Prod.ext e1 e2
    refine ⟨o1, hp.step, hp.same, fun b h => ?_, fun n hx ht => ?_⟩
    · have h' : p.closeTo τ target threshold = .ok b := h
      show isClose τ target threshold s w1 = (.ok b, w1)
      unfold isClose
      rw [PyM.bind_of_ok hag, h']
      rfl
    · obtain ⟨p', h, h2, h3, h4⟩ := hp.exact n hx; cases h
      refine ⟨hx.step hp.step h4, ?_⟩
      have hτ := hx.tau; subst hτ
      exact closeTo_goodEnough threshold h2 ht h3

/-! ## The loop -/

/-- Outcome of the loop started with the list `costs`. -/
structure LoopPost (τ : Arith) (G : EntryVal → Prop) (prop : List EntryVal → PyM Rng (List EntryVal))
    (C : Compiler) (target : Unitary) (threshold : Option ℝ) (maxStepCount : ℤ) (fuel : ℕ) (costs : List ℝ)
    (w : World) (b : ℝ) (s : ℕ) (o : SeqObj) (res : Except PyErr (List ℝ)) (w' : World) (o' : SeqObj) : Prop where
  wf : w'.WF τ
  only : Only s w w'
  get : w'.seqs[s]? = some o'
  dim : o'.dimension = o.dimension
  arr : o'.isArray = false
  betaLen : w'.betas.length = w.betas.length
  betaOther : ∀ c, c ≠ C.self → w'.betas[c]? = w.betas[c]?
  beta : ∃ k, w'.betas[C.self]? = some ((Metropolis.heat C.annealingRate C.maxBeta)^[k] b)
  ok : ∀ cs, res = .ok cs → ∃ more b', cs = costs ++ more ∧
    ((more = [] ∨ (cs.length : ℤ) ≤ maxStepCount) ∧
      (isClose τ target threshold s w' = (.ok true, w') ∨ maxStepCount ≤ (cs.length : ℤ))) ∧
    w'.betas[C.self]? = some b' ∧
    Metropolis.Walk C.annealingRate C.maxBeta prop (valsOf w.entries o.entries) b w.rng more.length
      (valsOf w'.entries o'.entries) b' w'.rng
  exact : ∀ n, Exact0 τ n w o → (∀ v, G v → v.Fits n ∧ v.Exact) → target.Exact (2 ^ n) →
    maxStepCount.toNat - costs.length ≤ fuel →
    match Metropolis.run n (target.matrix.toMatrix (2 ^ n)) threshold C.annealingRate C.maxBeta prop
        (maxStepCount.toNat - costs.length) ⟨valsOf w.entries o.entries, b⟩ w.rng with
    | (.error e, r) => res = .error e ∧ w'.rng = r
    | (.ok tr, r) =>
        res = .ok (costs ++ tr.map fun st => Metropolis.cost n (target.matrix.toMatrix (2 ^ n)) st.gates) ∧
        w'.rng = r ∧
        valsOf w'.entries o'.entries = (tr.getLast?.getD ⟨valsOf w.entries o.entries, b⟩).gates ∧
        w'.betas[C.self]? = some (tr.getLast?.getD ⟨valsOf w.entries o.entries, b⟩).beta ∧ Exact0 τ n w' o'

theorem getLast?_cons_getD {α : Type*} (a x : α) (l : List α) : (a :: l).getLast?.getD x = l.getLast?.getD a := by
  rw [List.getLast?_cons]; rfl

theorem loopTest_wp {τ : Arith} {G : EntryVal → Prop} {prop : List EntryVal → PyM Rng (List EntryVal)}
    {C : Compiler} {target : Unitary} {threshold : Option ℝ} {maxStepCount : ℤ} {s : ℕ} {fuel : ℕ}
    {costs : List ℝ} {w : World} {b : ℝ} {o : SeqObj} (hw : w.WF τ) (hs : w.seqs[s]? = some o)
    (ha : o.isArray = false) (hb : w.betas[C.self]? = some b) {next : PyM World (List ℝ)}
    (hnext : ∀ w1 o1, ClosePost τ target threshold w s o (.ok false) w1 o1 → (costs.length : ℤ) < maxStepCount →
      Wp next (fun res w' => ∃ o', LoopPost τ G prop C target threshold maxStepCount fuel costs w b s o res w' o')
        w1) :
    Wp (loopTest τ target threshold maxStepCount s costs next)
      (fun res w' => ∃ o', LoopPost τ G prop C target threshold maxStepCount fuel costs w b s o res w' o') w := by
  unfold loopTest
  refine Wp.bind ((isClose_wp target threshold hw hs).mono ?_)
  rintro res w1 ⟨o1, hc⟩
  have hw1 := hc.step.wf hw
  have hs1 := hc.step.get hs
  have ha1 : o1.isArray = false := hc.step.arr.trans ha
  have hb1 : w1.betas[C.self]? = some b := by rw [hc.step.betas]; exact hb
  have hg1 : valsOf w1.entries o1.entries = valsOf w.entries o.entries := by
    rw [hc.same.entries, (hw.seq hs).entries.vals_grow hc.step.grow]
  have walk : Metropolis.Walk C.annealingRate C.maxBeta prop (valsOf w.entries o.entries) b w.rng 0
      (valsOf w1.entries o1.entries) b w1.rng := by
    rw [hg1, hc.step.rng]; exact .refl _ _ _
  rcases res with err | close
  · refine ⟨o1, hw1, hc.step.only, hs1, hc.step.dim, ha1, by rw [hc.step.betas], fun c _ => by rw [hc.step.betas],
      ⟨0, hb1⟩,
      fun c h => (by cases h), fun n hx _ ht _ => ?_⟩
    have := (hc.exact n hx ht).2; cases this
  simp only
  cases close with
  | true =>
    rw [if_pos rfl]
    refine Wp.pure ⟨o1, hw1, hc.step.only, hs1, hc.step.dim, ha1, by rw [hc.step.betas],
      fun c _ => by rw [hc.step.betas], ⟨0, hb1⟩, fun c h => ?_, fun n hx _ ht _ => ?_⟩
    · cases h
      exact ⟨[], b, by simp, ⟨.inl rfl, .inl (hc.again true rfl)⟩, hb1, walk⟩
    · obtain ⟨hx1, h⟩ := hc.exact n hx ht
      have hgood : Metropolis.GoodEnough threshold
          (Metropolis.cost n (target.matrix.toMatrix (2 ^ n)) (valsOf w.entries o.entries)) := by
        simpa using (Except.ok.inj h).symm
      have hrun : ∀ k, Metropolis.run n (target.matrix.toMatrix (2 ^ n)) threshold C.annealingRate C.maxBeta prop
          k ⟨valsOf w.entries o.entries, b⟩ w.rng = (.ok [], w.rng) := by
        intro k
        cases k with
        | zero => rfl
        | succ k => rw [Metropolis.run, if_pos hgood]; rfl
      rw [hrun]
      exact ⟨by simp, hc.step.rng, hg1, hb1, hx1⟩
  | false =>
    rw [if_neg (by simp)]
    by_cases hlt : (costs.length : ℤ) < maxStepCount
    · rw [if_neg (by simpa using hlt)]
      exact hnext w1 o1 hc hlt
    · rw [if_pos hlt]
      refine Wp.pure ⟨o1, hw1, hc.step.only, hs1, hc.step.dim, ha1, by rw [hc.step.betas],
        fun c _ => by rw [hc.step.betas], ⟨0, hb1⟩, fun c h => ?_, fun n hx _ ht _ => ?_⟩
      · cases h
        exact ⟨[], b, by simp, ⟨.inl rfl, .inr (by omega)⟩, hb1, walk⟩
      · obtain ⟨hx1, h⟩ := hc.exact n hx ht
        have hz : maxStepCount.toNat - costs.length = 0 := by omega
        rw [hz, Metropolis.run]
        exact ⟨by simp, hc.step.rng, hg1, hb1, hx1⟩

theorem compileLoop_wp {τ : Arith} {G : EntryVal → Prop} {change : ℕ → PyM World Unit}
    {prop : List EntryVal → PyM Rng (List EntryVal)} (hch : Refines τ G change prop) {C : Compiler}
    {target : Unitary} (threshold : Option ℝ) (maxStepCount : ℤ) {s : ℕ} (fuel : ℕ) (costs : List ℝ)
    {w : World} {b : ℝ} {o : SeqObj} (hw : w.WF τ) (hs : w.seqs[s]? = some o)
    (ha : o.isArray = false) (hb : w.betas[C.self]? = some b) :
    Wp (compileLoop τ C change target threshold maxStepCount s fuel costs)
      (fun res w' => ∃ o', LoopPost τ G prop C target threshold maxStepCount fuel costs w b s o res w' o') w := by
  induction fuel generalizing costs w b o with
  | zero =>
    rw [compileLoop]
    refine loopTest_wp hw hs ha hb fun w1 o1 hc hlt => ?_
    have hb1 : w1.betas[C.self]? = some b := by rw [hc.step.betas]; exact hb
    show ∃ o', LoopPost τ G prop C target threshold maxStepCount 0 costs w b s o (.error .outOfFuel) w1 o'
    refine ⟨o1, hc.step.wf hw, hc.step.only, hc.step.get hs, hc.step.dim, hc.step.arr.trans ha,
      by rw [hc.step.betas], fun c _ => by rw [hc.step.betas], ⟨0, hb1⟩, fun c h => (by cases h), fun n _ _ _ hf => ?_⟩
    omega
  | succ fuel ih =>
    rw [compileLoop]
    refine loopTest_wp hw hs ha hb fun w1 o1 hc hlt => ?_
    have hw1 := hc.step.wf hw
    have hs1 := hc.step.get hs
    have ha1 : o1.isArray = false := hc.step.arr.trans ha
    have hb1 : w1.betas[C.self]? = some b := by rw [hc.step.betas]; exact hb
    have hg1 : valsOf w1.entries o1.entries = valsOf w.entries o.entries := by
      rw [hc.same.entries, (hw.seq hs).entries.vals_grow hc.step.grow]
    have hr1 : w1.rng = w.rng := hc.step.rng
    have hkm : maxStepCount.toNat - costs.length = (maxStepCount.toNat - costs.length - 1) + 1 := by omega
    have hrun : ∀ n, Exact0 τ n w o → target.Exact (2 ^ n) →
        Metropolis.run n (target.matrix.toMatrix (2 ^ n)) threshold C.annealingRate C.maxBeta prop
          (maxStepCount.toNat - costs.length) ⟨valsOf w.entries o.entries, b⟩ =
        (Metropolis.step n (target.matrix.toMatrix (2 ^ n)) C.annealingRate C.maxBeta prop
            ⟨valsOf w.entries o.entries, b⟩ >>= fun st =>
          Metropolis.run n (target.matrix.toMatrix (2 ^ n)) threshold C.annealingRate C.maxBeta prop
            (maxStepCount.toNat - costs.length - 1) st >>= fun rest => pure (st :: rest)) := by
      intro n hx ht
      have h := (hc.exact n hx ht).2
      have hgood : ¬ Metropolis.GoodEnough threshold
          (Metropolis.cost n (target.matrix.toMatrix (2 ^ n)) (valsOf w.entries o.entries)) := by
        simpa using (Except.ok.inj h).symm
      rw [hkm, Metropolis.run, if_neg hgood]
      rfl
    refine Wp.bind ((compileStep_wp (C := C) (target := target) hch hw1 hs1 ha1).mono ?_)
    rintro res w2 ⟨o2, hp⟩
    have only2 := hc.step.only.trans hp.only
    have hbl2 : w2.betas.length = w.betas.length := by rw [hp.betaLen, hc.step.betas]
    have hbo2 : ∀ c, c ≠ C.self → w2.betas[c]? = w.betas[c]? := fun c hcc => by
      rw [hp.betaOther c hcc, hc.step.betas]
    have hd2 : o2.dimension = o.dimension := hp.dim.trans hc.step.dim
    rcases res with err | cost
    · refine ⟨o2, hp.wf, only2, hp.get, hd2, hp.arr, hbl2, hbo2, hp.beta b hb1, fun c h => (by cases h), fun n hx hG ht hf => ?_⟩
      have hstep := hp.exact n b (hc.exact n hx ht).1 hG ht hb1
      rw [hg1, hr1] at hstep
      rw [hrun n hx ht]
      rcases hm : Metropolis.step n (target.matrix.toMatrix (2 ^ n)) C.annealingRate C.maxBeta prop
            ⟨valsOf w.entries o.entries, b⟩ w.rng with ⟨e | st, r⟩
      · rw [hm] at hstep
        rw [PyM.bind_of_error hm]
        exact ⟨by rw [Except.error.inj hstep.1], hstep.2⟩
      · rw [hm] at hstep; cases hstep.1
    simp only
    obtain ⟨b0, new, r, hb0, hbs2, hprop, hr2, hnext⟩ := hp.ok cost rfl
    rw [hb1] at hb0; cases hb0
    rw [hg1, hr1] at hprop
    rw [hg1] at hnext
    have hb2 : w2.betas[C.self]? = some (min (b + C.annealingRate) C.maxBeta) := by
      rw [hbs2]; simp [(List.getElem?_eq_some_iff.mp hb1).1]
    refine (ih (costs ++ [cost]) hp.wf hp.get hp.arr hb2).mono ?_
    rintro res w3 ⟨o3, hl⟩
    refine ⟨o3, hl.wf, only2.trans hl.only, hl.get, hl.dim.trans hd2, hl.arr, hl.betaLen.trans hbl2,
      fun c hcc => (hl.betaOther c hcc).trans (hbo2 c hcc), ?_, fun cs hcs => ?_, fun n hx hG ht hf => ?_⟩
    · obtain ⟨k, hk⟩ := hl.beta
      exact ⟨k + 1, by rw [hk, Function.iterate_succ_apply]; rfl⟩
    · obtain ⟨more, b', h1, ⟨h2, h3⟩, h4, h5⟩ := hl.ok cs hcs
      refine ⟨cost :: more, b', by rw [h1]; simp, ⟨.inr ?_, h3⟩, h4, ?_⟩
      · rcases h2 with rfl | h2
        · rw [h1]; simp; omega
        · exact h2
      · rw [hr2] at h5
        exact .step hprop hnext h5
    · have hstep := hp.exact n b (hc.exact n hx ht).1 hG ht hb1
      rw [hg1, hr1] at hstep
      rw [hrun n hx ht]
      rcases hm : Metropolis.step n (target.matrix.toMatrix (2 ^ n)) C.annealingRate C.maxBeta prop
            ⟨valsOf w.entries o.entries, b⟩ w.rng with ⟨e | st, r'⟩
      · rw [hm] at hstep; cases hstep.1
      rw [hm] at hstep
      obtain ⟨k1, k2, k3, k4, k5⟩ := hstep
      have hbst : st.beta = min (b + C.annealingRate) C.maxBeta := by
        have : w2.betas[C.self]? = some st.beta := by
          rw [k4]; simp [(List.getElem?_eq_some_iff.mp hb1).1]
        rw [hb2] at this; exact (Option.some.inj this).symm
      have hst : (⟨valsOf w2.entries o2.entries, min (b + C.annealingRate) C.maxBeta⟩ : Metropolis.State) = st := by
        rw [k3, ← hbst]
      have hrec := hl.exact n k5 hG ht (by simp; omega)
      rw [hst, k2] at hrec
      have hlen : maxStepCount.toNat - (costs ++ [cost]).length = maxStepCount.toNat - costs.length - 1 := by
        simp; omega
      rw [hlen] at hrec
      rw [PyM.bind_of_ok hm]
      rcases hm2 : Metropolis.run n (target.matrix.toMatrix (2 ^ n)) threshold C.annealingRate C.maxBeta prop
            (maxStepCount.toNat - costs.length - 1) st r' with ⟨e | tr, r3⟩
      · rw [hm2] at hrec
        rw [PyM.bind_of_error hm2]
        exact ⟨hrec.1, hrec.2⟩
      · rw [hm2] at hrec
        rw [PyM.bind_of_ok hm2]
        obtain ⟨l1, l2, l3, l4, l5⟩ := hrec
        refine ⟨?_, l2, ?_, ?_, l5⟩
        · rw [l1, Except.ok.inj k1]; simp
        · rw [l3, getLast?_cons_getD]
        · rw [l4, getLast?_cons_getD]

/-! ## Fuel -/

/-- The loop never runs out of fuel: more of it changes nothing. -/
theorem compileLoop_fuel (τ : Arith) (C : Compiler) (change : ℕ → PyM World Unit) (target : Unitary)
    (threshold : Option ℝ) (maxStepCount : ℤ) (s : ℕ) (fuel fuel' : ℕ) (costs : List ℝ)
    (h : maxStepCount.toNat - costs.length ≤ fuel) (h' : maxStepCount.toNat - costs.length ≤ fuel') :
    compileLoop τ C change target threshold maxStepCount s fuel costs =
      compileLoop τ C change target threshold maxStepCount s fuel' costs := by
  have key : ∀ (m m' : PyM World (List ℝ)), ((costs.length : ℤ) < maxStepCount → m = m') →
      loopTest τ target threshold maxStepCount s costs m = loopTest τ target threshold maxStepCount s costs m' := by
    intro m m' hm
    by_cases hlt : (costs.length : ℤ) < maxStepCount
    · rw [hm hlt]
    · unfold loopTest
      simp only [if_pos hlt]
  induction fuel generalizing costs fuel' with
  | zero =>
    cases fuel' with
    | zero => rfl
    | succ k =>
      rw [compileLoop, compileLoop]
      exact key _ _ fun hlt => absurd h (by omega)
  | succ fuel ih =>
    cases fuel' with
    | zero =>
      rw [compileLoop, compileLoop]
      exact key _ _ fun hlt => absurd h' (by omega)
    | succ k =>
      rw [compileLoop, compileLoop]
      refine key _ _ fun hlt => congrArg (fun f => compileStep τ C change target s >>= f) (funext fun cost => ?_)
      refine ih k (costs ++ [cost]) (by simp; omega) (by simp; omega) ?_
      intro m m' hm
      by_cases hlt : ((costs ++ [cost]).length : ℤ) < maxStepCount
      · rw [hm hlt]
      · unfold loopTest
        simp only [if_pos hlt]

/-- With a smaller budget the loop makes the same first steps. -/
theorem compileLoop_take (τ : Arith) (C : Compiler) (change : ℕ → PyM World Unit) (target : Unitary)
    (threshold : Option ℝ) {k m : ℤ} (hkm : k ≤ m) (s : ℕ) (fuel : ℕ) {costs cs : List ℝ} {w w' : World}
    (h : compileLoop τ C change target threshold m s fuel costs w = (.ok cs, w')) :
    costs <+: cs ∧ ∃ w'', compileLoop τ C change target threshold k s fuel costs w =
      (.ok (cs.take (max k.toNat costs.length)), w'') := by
  have key : ∀ (fuel : ℕ) (next next' : PyM World (List ℝ)) (costs cs : List ℝ) (w w' : World),
      (∀ w1 : World, next w1 = (.ok cs, w') → costs <+: cs ∧ ((costs.length : ℤ) < k → ∃ w'', next' w1 =
        (.ok (cs.take (max k.toNat costs.length)), w''))) →
      loopTest τ target threshold m s costs next w = (.ok cs, w') → costs <+: cs ∧
        ∃ w'', loopTest τ target threshold k s costs next' w =
          (.ok (cs.take (max k.toNat costs.length)), w'') := by
    intro fuel next next' costs cs w w' hn h
    unfold loopTest at h ⊢
    rcases hc : isClose τ target threshold s w with ⟨e | c, w1⟩
    · rw [PyM.bind_of_error hc] at h; cases h
    · rw [PyM.bind_of_ok hc] at h ⊢
      cases c with
      | true =>
        rw [if_pos rfl] at h ⊢
        cases h
        exact ⟨List.prefix_refl _, w', by rw [List.take_of_length_le (le_max_right _ _)]; rfl⟩
      | false =>
        rw [if_neg (by simp)] at h ⊢
        by_cases hm : (costs.length : ℤ) < m
        · rw [if_neg (by simpa using hm)] at h
          obtain ⟨h1, h2⟩ := hn w1 h
          by_cases hk : (costs.length : ℤ) < k
          · rw [if_neg (by simpa using hk)]
            exact ⟨h1, h2 hk⟩
          · rw [if_pos hk]
            refine ⟨h1, w1, ?_⟩
            rw [max_eq_right (by omega), ← List.prefix_iff_eq_take.mp h1]
            rfl
        · rw [if_pos hm] at h
          rw [if_pos (by omega)]
          cases h
          exact ⟨List.prefix_refl _, w', by rw [List.take_of_length_le (le_max_right _ _)]; rfl⟩
  induction fuel generalizing costs w with
  | zero =>
    rw [compileLoop] at h ⊢
    refine key 0 _ _ _ _ _ _ (fun w1 h1 => ?_) h
    cases h1
  | succ fuel ih =>
    rw [compileLoop] at h ⊢
    refine key 0 _ _ _ _ _ _ (fun w1 h1 => ?_) h
    rcases hst : compileStep τ C change target s w1 with ⟨e | cost, w2⟩
    · rw [PyM.bind_of_error hst] at h1; cases h1
    · rw [PyM.bind_of_ok hst] at h1
      obtain ⟨h2, w'', h3⟩ := ih h1
      refine ⟨(List.prefix_append _ _).trans h2, fun hk => ⟨w'', ?_⟩⟩
      rw [PyM.bind_of_ok hst, h3]
      have : max k.toNat (costs ++ [cost]).length = max k.toNat costs.length := by simp; omega
      rw [this]

/-- A loop that ends before its budget is used up ends in the same way with a larger one. -/
theorem compileLoop_early (τ : Arith) (C : Compiler) (change : ℕ → PyM World Unit) (target : Unitary)
    (threshold : Option ℝ) {k m : ℤ} (hkm : k ≤ m) (s : ℕ) (fuel : ℕ) {costs cs : List ℝ} {w w' : World}
    (h : compileLoop τ C change target threshold k s fuel costs w = (.ok cs, w')) (hlt : (cs.length : ℤ) < k) :
    compileLoop τ C change target threshold m s fuel costs w = (.ok cs, w') := by
  have key : ∀ (next next' : PyM World (List ℝ)) (costs : List ℝ) (w : World),
      (∀ w1 : World, next w1 = (.ok cs, w') → next' w1 = (.ok cs, w')) →
      loopTest τ target threshold k s costs next w = (.ok cs, w') →
      loopTest τ target threshold m s costs next' w = (.ok cs, w') := by
    intro next next' costs w hn h
    unfold loopTest at h ⊢
    rcases hc : isClose τ target threshold s w with ⟨e | c, w1⟩
    · rw [PyM.bind_of_error hc] at h; cases h
    · rw [PyM.bind_of_ok hc] at h ⊢
      cases c with
      | true =>
        rw [if_pos rfl] at h ⊢
        exact h
      | false =>
        rw [if_neg (by simp)] at h ⊢
        by_cases hk : (costs.length : ℤ) < k
        · rw [if_neg (by simpa using hk)] at h
          rw [if_neg (by simpa using lt_of_lt_of_le hk hkm)]
          exact hn w1 h
        · rw [if_pos hk] at h
          cases h
          exact absurd hlt hk
  induction fuel generalizing costs w with
  | zero =>
    rw [compileLoop] at h ⊢
    exact key _ _ _ _ (fun w1 h1 => by cases h1) h
  | succ fuel ih =>
    rw [compileLoop] at h ⊢
    refine key _ _ _ _ (fun w1 h1 => ?_) h
    rcases hst : compileStep τ C change target s w1 with ⟨e | cost, w2⟩
    · rw [PyM.bind_of_error hst] at h1; cases h1
    · rw [PyM.bind_of_ok hst] at h1 ⊢
      exact ih h1

/-- The same for the whole compilation. -/
theorem compileWith_early {τ : Arith} {C : Compiler} {change : ℕ → PyM World Unit} {target : Unitary}
    {threshold : Option ℝ} {k m : ℤ} (hkm : k ≤ m) {w w' : World} {R : CompilerResult}
    (h : compileWith τ C change target threshold k w = (.ok R, w')) (hlt : (R.costByStep.length : ℤ) < k) :
    compileWith τ C change target threshold m w = (.ok R, w') := by
  unfold compileWith at h ⊢
  rw [PyM.bind_eq_ok_iff] at h
  obtain ⟨s, w1, h1, h⟩ := h
  rw [PyM.bind_eq_ok_iff] at h
  obtain ⟨cs, w2, h2, h⟩ := h
  cases h
  rw [compileLoop_fuel τ C change target threshold k s k.toNat m.toNat [] (by simp) (by simp; omega)] at h2
  rw [PyM.bind_of_ok h1, PyM.bind_of_ok (compileLoop_early τ C change target threshold hkm s _ h2 hlt)]
  rfl

/-! ## The whole compilation -/

/-- Outcome of `compile` / `compile_layered`. -/
structure CompilePost (τ : Arith) (G : EntryVal → Prop) (prop : List EntryVal → PyM Rng (List EntryVal))
    (C : Compiler) (target : Unitary) (threshold : Option ℝ) (maxStepCount : ℤ) (w : World) (b : ℝ)
    (res : Except PyErr CompilerResult) (w' : World) : Prop where
  wf : w'.WF τ
  grow : Grow w.entries w'.entries
  others : ∀ t, t < w.seqs.length → w'.seqs[t]? = w.seqs[t]?
  betaLen : w'.betas.length = w.betas.length
  betaOther : ∀ c, c ≠ C.self → w'.betas[c]? = w.betas[c]?
  beta : ∃ k, w'.betas[C.self]? = some ((Metropolis.heat C.annealingRate C.maxBeta)^[k] b)
  ok : ∀ R, res = .ok R → R.sequence = w.seqs.length ∧
    (R.costByStep = [] ∨ (R.costByStep.length : ℤ) ≤ maxStepCount) ∧
    (isClose τ target threshold R.sequence w' = (.ok true, w') ∨ maxStepCount ≤ (R.costByStep.length : ℤ)) ∧
    ∃ o' b', w'.seqs[R.sequence]? = some o' ∧ o'.dimension = C.dimension ∧ o'.isArray = false ∧
      w'.betas[C.self]? = some b' ∧
      Metropolis.Walk C.annealingRate C.maxBeta prop [] b w.rng R.costByStep.length
        (valsOf w'.entries o'.entries) b' w'.rng
  exact : ∀ n, τ = 0 → C.dimension = 2 ^ n → ExactEs w.entries → (∀ v, G v → v.Fits n ∧ v.Exact) →
    target.Exact (2 ^ n) →
    match Metropolis.run n (target.matrix.toMatrix (2 ^ n)) threshold C.annealingRate C.maxBeta prop
        maxStepCount.toNat ⟨[], b⟩ w.rng with
    | (.error e, r) => res = .error e ∧ w'.rng = r
    | (.ok tr, r) =>
        res = .ok ⟨w.seqs.length,
          tr.map fun st => Metropolis.cost n (target.matrix.toMatrix (2 ^ n)) st.gates⟩ ∧ w'.rng = r ∧
        w'.betas[C.self]? = some (tr.getLast?.getD ⟨[], b⟩).beta ∧
        ∃ o', w'.seqs[w.seqs.length]? = some o' ∧
          valsOf w'.entries o'.entries = (tr.getLast?.getD ⟨[], b⟩).gates ∧ Exact0 τ n w' o'

theorem compileWith_wp {τ : Arith} {G : EntryVal → Prop} {change : ℕ → PyM World Unit}
    {prop : List EntryVal → PyM Rng (List EntryVal)} (hch : Refines τ G change prop) {C : Compiler}
    {target : Unitary} (threshold : Option ℝ) (maxStepCount : ℤ) {w : World} {b : ℝ} (hw : w.WF τ)
    (hb : w.betas[C.self]? = some b) :
    Wp (compileWith τ C change target threshold maxStepCount)
      (CompilePost τ G prop C target threshold maxStepCount w b) w := by
  unfold compileWith
  refine Wp.bind ((new_wp hw (rs := []) (by simp)).mono ?_)
  rintro res w1 ⟨-, h⟩
  obtain ⟨rs', rfl, hext, hseqs, hcop⟩ := h (by intro r hr; simp at hr)
  have hrs : rs' = [] := by
    obtain ⟨f, hf, -⟩ := hcop.count
    simpa using hf
  subst hrs
  simp only
  have hs1 : w1.seqs[w.seqs.length]? = some ⟨C.dimension, false, [], none, none, none⟩ := by
    rw [hseqs]; simp
  have hb1 : w1.betas[C.self]? = some b := by rw [hext.betas]; exact hb
  have hr1 := hext.rng
  refine Wp.bind ((compileLoop_wp (target := target) hch threshold maxStepCount maxStepCount.toNat [] hext.wf hs1 rfl
    hb1).mono ?_)
  rintro res w2 ⟨o2, hl⟩
  have hothers : ∀ t, t < w.seqs.length → w2.seqs[t]? = w.seqs[t]? := by
    intro t ht
    rw [hl.only.others t (by omega), hseqs, List.getElem?_append_left ht]
  have hgrow := hext.grow.trans hl.only.grow
  have hv0 : valsOf w1.entries ([] : List ℕ) = [] := rfl
  rcases res with err | cs
  · refine ⟨hl.wf, hgrow, hothers, by rw [hl.betaLen, hext.betas], fun c hc => by rw [hl.betaOther c hc, hext.betas],
      hl.beta, fun R h => (by cases h), fun n hτ hD hex hG ht => ?_⟩
    have hx1 : Exact0 τ n w1 ⟨C.dimension, false, [], none, none, none⟩ :=
      ⟨hτ, hD, NoNew.forall (P := EntryVal.Exact) hcop.nonew hex, ⟨by simp, by simp, by simp⟩⟩
    have := hl.exact n hx1 hG ht (by simp)
    simp only [hv0, hr1, List.length_nil, Nat.sub_zero] at this
    revert this
    rcases Metropolis.run n (target.matrix.toMatrix (2 ^ n)) threshold C.annealingRate C.maxBeta prop
        maxStepCount.toNat ⟨[], b⟩ w.rng with ⟨e | tr, r⟩
    · rintro ⟨g1, g2⟩
      exact ⟨by rw [Except.error.inj g1], g2⟩
    · rintro ⟨g1, -⟩; cases g1
  · simp only
    obtain ⟨more, b', h1, ⟨h2, h3⟩, h4, h5⟩ := hl.ok cs rfl
    simp only [List.nil_append] at h1
    subst h1
    refine Wp.pure ⟨hl.wf, hgrow, hothers, by rw [hl.betaLen, hext.betas],
      fun c hc => by rw [hl.betaOther c hc, hext.betas], hl.beta, fun R h => ?_, fun n hτ hD hex hG ht => ?_⟩
    · cases h
      refine ⟨rfl, h2, h3, o2, b', hl.get, hl.dim, hl.arr, h4, ?_⟩
      rw [← hr1]; exact h5
    · have hx1 : Exact0 τ n w1 ⟨C.dimension, false, [], none, none, none⟩ :=
        ⟨hτ, hD, NoNew.forall (P := EntryVal.Exact) hcop.nonew hex, ⟨by simp, by simp, by simp⟩⟩
      have := hl.exact n hx1 hG ht (by simp)
      simp only [hv0, hr1, List.length_nil, Nat.sub_zero, List.nil_append] at this
      revert this
      rcases Metropolis.run n (target.matrix.toMatrix (2 ^ n)) threshold C.annealingRate C.maxBeta prop
          maxStepCount.toNat ⟨[], b⟩ w.rng with ⟨e | tr, r⟩
      · rintro ⟨g1, -⟩; cases g1
      · rintro ⟨g1, g2, g3, g4, g5⟩
        exact ⟨by rw [Except.ok.inj g1], g2, g4, o2, hl.get, g3, g5⟩

end Stoq
