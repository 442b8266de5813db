import Verif.Proofs.DriftStoq
import Verif.Props.DriftHamiltonian

/-!
# Property C64: compilation for a Hamiltonian with the clean-up of small matrix entries and rounding

`compile_stoq_sequence` and `compile_rav_sequence` allow 10000 steps.  The error budget may cover fewer, `K`; then the
first `K` steps are described, and the whole call if it stops before.
-/

namespace Stoq

open World Matrix Compiler

variable {n : ℕ} {Ms : List (Matrix (Fin (2 ^ n)) (Fin (2 ^ n)) ℂ)} {H : Hamiltonian} {τ : Arith} {δ : ℝ}

theorem Budget.eps_lim {ε : ℝ} {k : ℕ} (hb : Budget n τ δ ε (k + 1)) : ε ≤ driftLimit := by
  have := hb.step
  have h2 := two_pow_tau_nonneg n hb.t0
  unfold stepErr at this
  nlinarith

/-- The primitives: they can be made, and each gate they yield is the evolution it is labelled with, up to
`6 * 2 ^ n * δ`. -/
theorem C64_primitives (hn : 1 ≤ n) (hτ : τ.Accurate (2 ^ n) δ) (hlim : 6 * 2 ^ n * δ ≤ driftLimit) (hH : H.Of Ms) {m : ℝ} (hm : 0 ≤ m)
    (hmt : m * (Ms.map maxAbsEigenvalue).sum ≤ 100)
    (b : Bool) : ∃ prims, H.getUnitaryPrimitives τ m b = .ok prims ∧ (∀ p ∈ prims, p.Nearly n δ (6 * 2 ^ n * δ)) ∧
      List.Forall₂ (fun s p => p.allowedApplyTo = some [(List.range n).map Int.ofNat] ∧ ∃ pu, p.unitary = .inr pu ∧
        ∀ t, -m ≤ t ∧ t ≤ m → ∃ u, pu.asUnitary τ [t] = .ok u ∧
          EvolvesNear n (6 * 2 ^ n * δ) (Hamiltonian.subsetSuffix s) (subsetSum Ms s) t ⟨u, List.range n⟩)
        (H.termSubsets b) prims := by
  obtain ⟨prims, h1, -, h2⟩ := primitives_near hn hτ hlim hH hm hmt b
  refine ⟨prims, h1, h2, ?_⟩
  rw [primitives_eq h1, List.forall₂_map_right_iff, List.forall₂_same]
  intro s hs
  refine ⟨by rw [← hH.applyTo]; rfl, _, rfl, fun t ht => ?_⟩
  obtain ⟨u, e1, -, e2⟩ := (family_near hn hτ hlim hH hm hmt hs).2.2 t ht
  exact ⟨u, e1, e2⟩

/-- `compile_stoq_sequence`: the first `K` steps are a run of the specification, on the ideal evolutions `E` of the
gates, in which each cost is measured up to an error; if this run stops before, or `K` is 10000, the call returns, and
its sequence has the gates of the run and a product close to that of the ideal evolutions.  `E v` is the evolution that
the label of `v` names. -/
theorem C64_stoq {c : Client} {Cs : List Compiler} (hs : Session τ c Cs) (hn : 1 ≤ n) (hH : H.Of Ms) {t : ℝ}
    (ht : |t| * (Ms.map maxAbsEigenvalue).sum ≤ 100) {m : ℝ}
    (hm : 0 ≤ m)
    (hmt : m * (Ms.map maxAbsEigenvalue).sum ≤ 100)
    (threshold : Option ℝ) (b : Bool) {ε : ℝ} (hε : ε = 6 * 2 ^ n * δ) {K : ℕ} (hK : K ≤ 10000)
    (hb : Budget n τ δ ε (K + 1)) :
    ∃ (gen : PyM Rng EntryVal) (E : EntryVal → Matrix (Fin (2 ^ n)) (Fin (2 ^ n)) ℂ) (costs : List ℝ)
        (g : List EntryVal) (b' : ℝ) (r' : Rng),
      (∀ s t v, EvolvesNear n ε (Hamiltonian.subsetSuffix s) (subsetSum Ms s) t v → E v = evolution (subsetSum Ms s) t) ∧
      (∀ r : Rng, ∃ v s, gen r = (.ok v, { r with upos := r.upos + 1, npos := r.npos + 2 }) ∧
        (H.termSubsets b)[r.nat r.npos % (H.termSubsets b).length]? = some s ∧
        EvolvesNear n ε (Hamiltonian.subsetSuffix s) (subsetSum Ms s) (2 * m * r.unif r.upos - m) v) ∧
      Metropolis.NearRun (fun g => 1 - overlap (evolution Ms.sum t) (g.map E).reverse.prod)
        (costErr n δ ε (3 * 2 ^ n * δ) K) threshold 0.1 (((2 : ℝ) ^ 2 ^ n) ^ 2)
        (Metropolis.propose 0.5 (Metropolis.one gen) 1) K [] 0 c.world.rng costs g b' r' ∧
      (∀ R w', H.compileStoqSequence τ t m threshold b c.world = (.ok R, w') → R.costByStep.take K = costs) ∧
      (costs.length < K ∨ K = 10000 → ∃ R w' undo p, H.compileStoqSequence τ t m threshold b c.world = (.ok R, w') ∧
        R.costByStep = costs ∧ c.world.view R.sequence = none ∧ w'.view R.sequence = some ⟨2 ^ n, false, g, undo⟩ ∧
        w'.rng = r' ∧ (Seq.product τ R.sequence w').1 = .ok p ∧ p.Near (g.map E).reverse.prod (driftErr n δ ε K)) := by
  have hlim : 6 * 2 ^ n * δ ≤ driftLimit := hε ▸ hb.eps_lim
  have h0 := two_pow_tau_nonneg n hb.t0
  obtain ⟨prims, hp, hne, hprims⟩ := primitives_near hn hb.tau hlim hH hm hmt b
  obtain ⟨target, u1, u2, -⟩ := C64_evolution hb.tau (by linarith) hH ht
  obtain ⟨E, hE⟩ := exists_evolutions n Ms
  have hi := idealFor_evolutions hn hb.tau hlim hH hm hmt hp hE
  rw [← hε] at hprims hi
  have hd := Budget.drawOk hb (by linarith)
  have hU : CompilerUsable (2 ^ n) prims false :=
    ⟨⟨by positivity, fun q hq => nearly_dimension (hprims q hq)⟩, hne, by simp⟩
  have hch : ChoiceOk prims none := by
    unfold ChoiceOk
    rw [usable_all hp]
    exact List.length_pos_of_ne_nil hne
  have hcall : ∀ w, H.compileStoqSequence τ t m threshold b w =
      newCompile τ (2 ^ n) prims false none 0.5 threshold 10000 target w := by
    intro w; rw [stoq_ok u1 hp, hH.terms.1]
  have hcomp := newCompile_near hd hprims hch (p := 0.5) (by norm_num) hU hi threshold (K : ℤ) (K := K) (by simp) hb
    c.world target _ _ hs.ok.1.wf (evolution_unitary hH.total.2 t) u2 (by linarith)
  rw [Wp] at hcomp
  obtain ⟨R, o', b', e1, e2, e3, e4⟩ := hcomp
  obtain ⟨C, k1, -, -, -, k4⟩ := (newCompile_ok τ (2 ^ n) prims false none 0.5 threshold K c.world target
    hs.ok.1.wf).1 hU
  obtain ⟨k5, -, -, o2, -, k6, k7, k8, -⟩ := k4.ok R e1
  rw [e2] at k6; cases k6
  generalize hrun : newCompile τ (2 ^ n) prims false none 0.5 threshold K target c.world = out at *
  rw [idealCost_full, Int.toNat_natCast] at e4
  refine ⟨createRandomEntryVal τ (2 ^ n) prims none, E, R.costByStep, _, b', _, hE ε, fun r => ?_, e4, fun R' w' h => ?_,
    fun h => ?_⟩
  · obtain ⟨v, s, g1, g2, g3⟩ := fresh_gate_of hH hm hp (P := fun s t v =>
      EvolvesNear n ε (Hamiltonian.subsetSuffix s) (subsetSum Ms s) t v) (fun s hs t ht => by
        rw [hε]; exact (family_near hn hb.tau hlim hH hm hmt hs).2.2 t ht) r
    exact ⟨v, s, g1, g2, g3⟩
  · rw [hcall] at h
    obtain ⟨w'', h⟩ := newCompile_take (k := K) (by exact_mod_cast hK) h
    rw [hrun] at h
    rw [h] at e1
    rw [← Except.ok.inj e1, Int.toNat_natCast]
  · have hprod := product_near e3 (hb.mono (Nat.le_succ _)) k4.wf e2
    rw [Wp] at hprod
    obtain ⟨_, p, -, h9, h10, -⟩ := hprod
    have e : (fun v => Gate.full n (E v)) = Gate.full n ∘ E := rfl
    rw [e, ← List.map_map, gateProduct_full] at h10
    refine ⟨R, out.2, o'.previousEntries.map (valsOf out.2.entries), p, ?_, rfl, ?_,
      view_eq_some.mpr ⟨o', e2, by rw [viewOf, k8, k7, k1]⟩, rfl, h9, h10⟩
    · have hout : out = (.ok R, out.2) := Prod.ext e1 rfl
      rw [hcall]
      rcases h with h | h
      · exact newCompile_early (k := K) (by exact_mod_cast hK) (hrun.trans hout) (by exact_mod_cast h)
      · subst h
        exact hrun.trans hout
    · unfold World.view
      rw [k5]
      simp only
      rw [List.getElem?_eq_none le_rfl]; rfl

/-- `compile_rav_sequence`: if `k` is the first number of gates at which the total time, as given by the random numbers,
reaches `time`, the random part has `k` gates, which are up to `ε` the evolutions given by the random numbers.  The
first `K` steps of the compilation are a run of the specification towards the inverse of the ideal random part in which
each cost is measured up to an error; if this run stops before, or `K` is 10000, the call returns the random part
followed by the gates of the run. -/
theorem C64_rav {c : Client} {Cs : List Compiler} (hs : Session τ c Cs) (hn : 1 ≤ n) (hH : H.Of Ms) {time m : ℝ}
    (hm : 0 ≤ m)
    (hmt : m * (Ms.map maxAbsEigenvalue).sum ≤ 100)
    (threshold : Option ℝ) (b : Bool) {ε : ℝ} (hε : ε = 6 * 2 ^ n * δ) {k K fuel : ℕ} (hk : k ≤ fuel)
    (hlt : ∀ j < k, Rav.totalTime m c.world.rng j < time) (hge : time ≤ Rav.totalTime m c.world.rng k)
    (hkK : k ≤ K) (hK : K ≤ 10000) (hb : Budget n τ δ ε (2 * (K + 1))) :
    ∃ (gen : PyM Rng EntryVal) (E : EntryVal → Matrix (Fin (2 ^ n)) (Fin (2 ^ n)) ℂ) (pre : List EntryVal)
        (costs : List ℝ) (g : List EntryVal) (b' : ℝ) (r' : Rng),
      (∀ s t v, EvolvesNear n ε (Hamiltonian.subsetSuffix s) (subsetSum Ms s) t v → E v = evolution (subsetSum Ms s) t) ∧
      (∀ r : Rng, ∃ v s, gen r = (.ok v, { r with upos := r.upos + 1, npos := r.npos + 2 }) ∧
        (H.termSubsets b)[r.nat r.npos % (H.termSubsets b).length]? = some s ∧
        EvolvesNear n ε (Hamiltonian.subsetSuffix s) (subsetSum Ms s) (2 * m * r.unif r.upos - m) v) ∧
      pre.length = k ∧
      (∀ i e, pre[i]? = some e → ∃ s,
        (H.termSubsets b)[c.world.rng.nat (c.world.rng.npos + i) % (H.termSubsets b).length]? = some s ∧
        EvolvesNear n ε (Hamiltonian.subsetSuffix s) (subsetSum Ms s) (Rav.stepTime m c.world.rng i) e) ∧
      Metropolis.NearRun (fun g => 1 - overlap ((pre.map E).reverse.prod)ᴴ (g.map E).reverse.prod)
        (costErr n δ ε (driftErr n δ ε (k + 1)) K) threshold 0.1 (((2 : ℝ) ^ 2 ^ n) ^ 2)
        (Metropolis.propose 0.5 (Metropolis.one gen) 1) K [] 0
        { c.world.rng with upos := c.world.rng.upos + 2 * k, npos := c.world.rng.npos + k } costs g b' r' ∧
      (∀ R w', H.compileRavSequence τ time m threshold b fuel c.world = (.ok R, w') → R.costByStep.take K = costs) ∧
      (costs.length < K ∨ K = 10000 → ∃ R w' undo p,
        H.compileRavSequence τ time m threshold b fuel c.world = (.ok R, w') ∧ R.costByStep = costs ∧
        c.world.view R.sequence = none ∧ w'.view R.sequence = some ⟨2 ^ n, false, pre ++ g, undo⟩ ∧ w'.rng = r' ∧
        (Seq.product τ R.sequence w').1 = .ok p ∧
        p.Near ((pre ++ g).map E).reverse.prod (driftErr n δ ε (2 * (K + 1)))) := by
  have hlim : 6 * 2 ^ n * δ ≤ driftLimit := hε ▸ Budget.eps_lim (k := 2 * K + 1) hb
  have h0 := two_pow_tau_nonneg n hb.t0
  obtain ⟨prims, hp, hne, hprims⟩ := primitives_near hn hb.tau hlim hH hm hmt b
  obtain ⟨E, hE⟩ := exists_evolutions n Ms
  have hi := idealFor_evolutions hn hb.tau hlim hH hm hmt hp hE
  have hG : ∀ v t, RavGate τ prims H.applyTo t v → (Gate.full n (E v)).Ok n ∧ v.Realises (Gate.full n (E v)) ε := by
    intro v t hv
    rw [hε]
    exact (ravGate_stoqGate hp hv).ideal hn hb.tau hlim hH hm hmt hE
  rw [← hε] at hprims hi
  have hd := Budget.drawOk (k := 2 * K + 1) hb (by linarith)
  have hU : CompilerUsable (2 ^ n) prims false :=
    ⟨⟨by positivity, fun q hq => nearly_dimension (hprims q hq)⟩, hne, by simp⟩
  have hch : ChoiceOk prims none := by
    unfold ChoiceOk
    rw [usable_all hp]
    exact List.length_pos_of_ne_nil hne
  obtain ⟨pre, hpre, h2, h3⟩ := Rav.evolutions_tape (gate := Rav.evolveGate τ prims H.applyTo) (time := time)
    (total := 0) (P := fun t j v => ∃ s, (H.termSubsets b)[j % (H.termSubsets b).length]? = some s ∧
      EvolvesNear n ε (Hamiltonian.subsetSuffix s) (subsetSum Ms s) t v) hm
    (fun t r ht => evolveGate_of hH hp (P := fun s v =>
      EvolvesNear n ε (Hamiltonian.subsetSuffix s) (subsetSum Ms s) t v) (fun s hs => by
        rw [hε]; exact (family_near hn hb.tau hlim hH hm hmt hs).2.2 t (abs_le.mp ht)) r) hk
    (fun j hj => by rw [zero_add]; exact hlt j hj) (by rw [zero_add]; exact hge)
  have hcall : ∀ w, H.compileRavSequence τ time m threshold b fuel w =
      ravWith τ (2 ^ n) (fun s => H.ravLoop τ prims m time s fuel 0) False
        (newCompile τ (2 ^ n) prims false none 0.5 threshold 10000) w := by
    intro w; rw [hrav_eq hp, hH.terms.1]
  have hpost := ravWith_wp (ravLoop_fill (τ := τ) (H := H) (prims := prims) m time fuel 0)
    (newCompile_ok τ (2 ^ n) prims false none 0.5 threshold K) False hs.ok.1.wf
  have hnear := ravWith_near (ravLoop_fill (τ := τ) (H := H) (prims := prims) m time fuel 0)
    (ravLoop_near hG m time fuel 0) (newCompile_ok τ (2 ^ n) prims false none 0.5 threshold K) hU
    (newCompile_near hd hprims hch (p := 0.5) (by norm_num) hU hi threshold (K : ℤ) (K := K) (by simp)
      (hb.mono (by omega))) rfl False hs.ok.1.wf hpre h2.le hkK hb
  rw [Wp] at hpost hnear
  obtain ⟨R, w', pre', r1, g, undo, b', e1, e2, e3, e4, -, e6, -, p, e7, e8⟩ := nearlyVerifies_of hb hpre hpost hnear
  rw [hpre] at e2
  cases e2
  have e : (fun v => Gate.full n (E v)) = Gate.full n ∘ E := rfl
  have e6 := e6 not_false
  rw [idealCost_full, Int.toNat_natCast, e, ← List.map_map, gateProduct_full] at e6
  rw [e, ← List.map_map, gateProduct_full] at e8
  refine ⟨createRandomEntryVal τ (2 ^ n) prims none, E, pre, R.costByStep, g, b', w'.rng, hE ε, fun r => ?_, h2,
    fun i v hv => ?_, e6, fun R' w' h => ?_, fun h => ⟨R, w', undo, p, ?_, rfl, e3, e4, rfl, e7, e8⟩⟩
  · obtain ⟨v, s, g1, g2, g3⟩ := fresh_gate_of hH hm hp (P := fun s t v =>
      EvolvesNear n ε (Hamiltonian.subsetSuffix s) (subsetSum Ms s) t v) (fun s hs t ht => by
        rw [hε]; exact (family_near hn hb.tau hlim hH hm hmt hs).2.2 t ht) r
    exact ⟨v, s, g1, g2, g3⟩
  · obtain ⟨s, g1, g2⟩ := h3 i v hv
    exact ⟨s, g1, g2⟩
  · rw [hcall] at h
    refine ravWith_take (fun target w R w' hr => ?_) e1 h
    obtain ⟨w'', hr⟩ := newCompile_take (k := K) (by exact_mod_cast hK) hr
    rw [Int.toNat_natCast] at hr
    exact ⟨w'', hr⟩
  · rw [hcall]
    rcases h with h | h
    · exact ravWith_early (fun target w R w' hr hlt => newCompile_early (k := K) (by exact_mod_cast hK) hr
        (by exact_mod_cast hlt)) e1 h
    · subst h
      exact e1

theorem forall_evolves {ε m : ℝ} {b : Bool} (hn : 1 ≤ n) (hτ : τ.Accurate (2 ^ n) δ) (hε : ε = 6 * 2 ^ n * δ) (hlim : ε ≤ driftLimit)
    (hH : H.Of Ms) (hm : 0 ≤ m)
    (hmt : m * (Ms.map maxAbsEigenvalue).sum ≤ 100)
    {E : EntryVal → Matrix (Fin (2 ^ n)) (Fin (2 ^ n)) ℂ}
    (hE : ∀ s t v, EvolvesNear n ε (Hamiltonian.subsetSuffix s) (subsetSum Ms s) t v → E v = evolution (subsetSum Ms s) t)
    {es : List EntryVal} (h : ∀ e ∈ es, ∃ t, StoqGate τ H b m t e) :
    List.Forall₂ (fun e A => ∃ s ∈ H.termSubsets b, ∃ t, -m ≤ t ∧ t ≤ m ∧
      EvolvesNear n ε (Hamiltonian.subsetSuffix s) (subsetSum Ms s) t e ∧ A = evolution (subsetSum Ms s) t) es (es.map E) := by
  rw [List.forall₂_map_right_iff, List.forall₂_same]
  intro e he
  obtain ⟨t, ht⟩ := h e he
  obtain ⟨s, hs, hv⟩ := ht.near hn hτ (hε ▸ hlim) hH hm hmt
  obtain ⟨-, -, h1, h2, -⟩ := ht
  rw [← hε] at hv
  exact ⟨s, hs, t, h1, h2, hv, hE _ _ _ hv⟩

/-- The gates of a call of `compile_stoq_sequence` that recorded fewer than `K` costs are, up to `ε`, evolutions under
subsets of the terms for times of `[-max_t_step, max_t_step]`; the product of these evolutions is within the threshold,
up to the error of the measured costs, of the time evolution. -/
theorem C64_stoq_distance {c : Client} {Cs : List Compiler} (hs : Session τ c Cs) (hn : 1 ≤ n) (hH : H.Of Ms) {t m : ℝ}
    (ht : |t| * (Ms.map maxAbsEigenvalue).sum ≤ 100)
    (hm : 0 ≤ m)
    (hmt : m * (Ms.map maxAbsEigenvalue).sum ≤ 100)
    {x : ℝ} {b : Bool} {ε : ℝ} (hε : ε = 6 * 2 ^ n * δ) {K : ℕ} (hK : K ≤ 10000)
    (hb : Budget n τ δ ε (K + 1)) {R : CompilerResult} {w' : World}
    (h : H.compileStoqSequence τ t m (some x) b c.world = (.ok R, w')) (hlt : R.costByStep.length < K) :
    ∃ es undo As, w'.view R.sequence = some ⟨2 ^ n, false, es, undo⟩ ∧
      List.Forall₂ (fun e A => ∃ s ∈ H.termSubsets b, ∃ t, -m ≤ t ∧ t ≤ m ∧
        EvolvesNear n ε (Hamiltonian.subsetSuffix s) (subsetSum Ms s) t e ∧ A = evolution (subsetSum Ms s) t) es As ∧
      1 - overlap (evolution Ms.sum t) As.reverse.prod ≤ 1 - x + costErr n δ ε (3 * 2 ^ n * δ) K := by
  obtain ⟨gen, E, costs, g, b', r', hE, -, h1, h2, h3⟩ := C64_stoq hs hn hH ht hm hmt (some x) b hε hK hb
  have h4 := h2 R w' h
  rw [List.take_of_length_le hlt.le] at h4
  obtain ⟨R', w'', undo, p, h5, -, -, h6, -⟩ := h3 (.inl (h4 ▸ hlt))
  rw [h] at h5
  cases h5
  obtain ⟨-, ⟨es, undo', k1, k2, -⟩, -⟩ := C51_stoq_shape hs h
  rw [k1, hH.terms.1, Option.some.injEq] at h6
  obtain rfl : es = g := (SeqView.mk.inj h6).2.2.1
  exact ⟨es, undo', es.map E, by rw [k1, hH.terms.1], forall_evolves hn hb.tau hε hb.eps_lim hH hm hmt hE k2,
    (C61_early_end h1 (h4 ▸ hlt)).1 x rfl⟩

/-- The gates of a call of `compile_rav_sequence` that recorded fewer than `K` costs are, up to `ε`, evolutions under
subsets of the terms for times of `[-max_t_step, max_t_step]`; the product of these evolutions is within the threshold,
up to the error of the measured costs, of the identity. -/
theorem C64_rav_distance {c : Client} {Cs : List Compiler} (hs : Session τ c Cs) (hn : 1 ≤ n) (hH : H.Of Ms) {time m : ℝ}
    (hm : 0 ≤ m)
    (hmt : m * (Ms.map maxAbsEigenvalue).sum ≤ 100)
    {x : ℝ} {b : Bool} {ε : ℝ} (hε : ε = 6 * 2 ^ n * δ) {k K fuel : ℕ} (hk : k ≤ fuel)
    (hlt : ∀ j < k, Rav.totalTime m c.world.rng j < time) (hge : time ≤ Rav.totalTime m c.world.rng k)
    (hkK : k ≤ K) (hK : K ≤ 10000) (hb : Budget n τ δ ε (2 * (K + 1))) {R : CompilerResult} {w' : World}
    (h : H.compileRavSequence τ time m (some x) b fuel c.world = (.ok R, w')) (hlt' : R.costByStep.length < K) :
    ∃ es undo As, w'.view R.sequence = some ⟨2 ^ n, false, es, undo⟩ ∧
      List.Forall₂ (fun e A => ∃ s ∈ H.termSubsets b, ∃ t, -m ≤ t ∧ t ≤ m ∧
        EvolvesNear n ε (Hamiltonian.subsetSuffix s) (subsetSum Ms s) t e ∧ A = evolution (subsetSum Ms s) t) es As ∧
      1 - overlap 1 As.reverse.prod ≤ 1 - x + costErr n δ ε (driftErr n δ ε (k + 1)) K := by
  obtain ⟨gen, E, pre, costs, g, b', r', hE, -, -, -, h1, h2, h3⟩ :=
    C64_rav hs hn hH hm hmt (some x) b hε hk hlt hge hkK hK hb
  have h4 := h2 R w' h
  rw [List.take_of_length_le hlt'.le] at h4
  obtain ⟨R', w'', undo, p, h5, -, -, h6, -⟩ := h3 (.inl (h4 ▸ hlt'))
  rw [h] at h5
  cases h5
  obtain ⟨-, pre', comp, undo', ts, k1, k2, -, -, -, k3, -⟩ := C52_rav_shape hs h
  have hall : ∀ e ∈ pre' ++ comp, ∃ t, StoqGate τ H b m t e := by
    intro e he
    rcases List.mem_append.mp he with he | he
    · obtain ⟨i, hi⟩ := List.mem_iff_getElem?.mp he
      rcases forall₂_getElem? k2 i with ⟨-, h⟩ | ⟨a, e', -, h, hE⟩
      · rw [h] at hi; cases hi
      · rw [h] at hi; cases hi
        exact ⟨a, hE⟩
    · exact k3 e he
  rw [k1, hH.terms.1, Option.some.injEq] at h6
  rw [(SeqView.mk.inj h6).2.2.1] at hall
  refine ⟨pre ++ g, undo', (pre ++ g).map E, by rw [k1, hH.terms.1, ← (SeqView.mk.inj h6).2.2.1],
    forall_evolves hn hb.tau hε (Budget.eps_lim (k := 2 * K + 1) hb) hH hm hmt hE hall, ?_⟩
  have := (C61_early_end h1 (h4 ▸ hlt')).1 x rfl
  rw [List.map_append, List.reverse_append, List.prod_append]
  refine le_trans (le_of_eq ?_) this
  unfold overlap
  rw [conjTranspose_conjTranspose, conjTranspose_one, Matrix.one_mul, Matrix.trace_mul_comm]

/-! ## At the code's threshold -/

theorem xzBudget (k : ℕ) (hk : k ≤ 60) : Budget 1 (.exact codeTau) codeTau 12e-12 k :=
  (C56_budget code_accurate (by unfold codeTau; norm_num) (by norm_num) (by
    have : (k : ℝ) ≤ 60 := by exact_mod_cast hk
    unfold stepErr codeTau; norm_num; nlinarith)).1

/-- Compilation for Pauli X plus Pauli Z, with the code's threshold: a call that recorded fewer than 50 costs has found
evolutions whose product overlaps with the time evolution by 1/2, up to 1e-8. -/
example (rng : Rng) : ∃ H, Hamiltonian.Of (n := 1) [!![0, 1; 1, 0], !![1, 0; 0, -1]] H ∧
    ∀ R w', H.compileStoqSequence (.exact codeTau) 2 (1 / 4) (some (1 / 2)) true (Client.start rng).world = (.ok R, w') →
      R.costByStep.length < 50 → ∃ As : List (Matrix (Fin (2 ^ 1)) (Fin (2 ^ 1)) ℂ),
        1 / 2 - 1e-8 ≤ overlap (evolution ([!![0, 1; 1, 0], !![1, 0; 0, -1]] : List _).sum 2) As.reverse.prod := by
  obtain ⟨H, hH⟩ := example_xz
  refine ⟨H, hH, fun R w' h hlt => ?_⟩
  obtain ⟨es, undo, As, -, -, h1⟩ := C64_stoq_distance (.start rng) le_rfl hH (t := 2) (m := 1 / 4)
    (by rw [xz_lambda]; norm_num) (by norm_num) (by rw [xz_lambda]; norm_num) (ε := 12e-12)
    (by unfold codeTau; norm_num) (K := 50) (by norm_num) (xzBudget _ (by norm_num)) h hlt
  refine ⟨As, ?_⟩
  have hE : costErr 1 codeTau 12e-12 (3 * 2 ^ 1 * codeTau) 50 ≤ 1e-8 := by
    have h := (xzBudget 51 (by norm_num)).lim
    unfold costErr
    unfold driftLimit at h
    have h0 := driftErr_nonneg (n := 1) (k := 51) (t := codeTau) (ε := 12e-12) (by unfold codeTau; norm_num) (by norm_num)
    unfold codeTau at *
    norm_num at *
    nlinarith
  linarith

/-- For time 0 it stops at once, with no gates. -/
example (rng : Rng) : ∃ H, Hamiltonian.Of (n := 1) [!![0, 1; 1, 0], !![1, 0; 0, -1]] H ∧ ∃ R w' undo,
    H.compileStoqSequence (.exact codeTau) 0 (1 / 4) (some (1 / 2)) true (Client.start rng).world = (.ok R, w') ∧
      R.costByStep = [] ∧ w'.view R.sequence = some ⟨2, false, [], undo⟩ := by
  obtain ⟨H, hH⟩ := example_xz
  obtain ⟨gen, E, costs, g, b', r', -, -, h1, -, h2⟩ := C64_stoq (τ := .exact codeTau) (δ := codeTau) (.start rng) le_rfl hH
    (t := 0) (by rw [xz_lambda]; norm_num) (m := 1 / 4) (by norm_num) (by rw [xz_lambda]; norm_num) (some (1 / 2)) true (ε := 12e-12) (by unfold codeTau; norm_num) (K := 50)
    (by norm_num) (xzBudget _ (by norm_num))
  have hE : costErr 1 codeTau 12e-12 (3 * 2 ^ 1 * codeTau) 50 ≤ 1e-8 := by
    have h := (xzBudget 51 (by norm_num)).lim
    unfold costErr
    unfold driftLimit at h
    have h0 := driftErr_nonneg (n := 1) (k := 51) (t := codeTau) (ε := 12e-12) (by unfold codeTau; norm_num) (by norm_num)
    unfold codeTau at *
    norm_num at *
    nlinarith
  have hgood : ∀ c, |c - (1 - overlap (evolution ([!![0, 1; 1, 0], !![1, 0; 0, -1]] : List (Matrix (Fin (2 ^ 1)) (Fin (2 ^ 1)) ℂ)).sum 0)
      (([] : List EntryVal).map E).reverse.prod)| ≤ costErr 1 codeTau 12e-12 (3 * 2 ^ 1 * codeTau) 50 →
      Metropolis.GoodEnough (some (1 / 2)) c := by
    intro c hc
    rw [evolution_zero, List.map_nil, List.reverse_nil, List.prod_nil, overlap_self (by norm_num) (one_mem _)] at hc
    have := (abs_le.mp hc).2
    simp only [Metropolis.GoodEnough]
    linarith
  have hnil : costs = [] ∧ g = [] := by
    cases h1 with
    | stop c h3 h4 => exact ⟨rfl, rfl⟩
    | accept c x y h3 h4 => exact absurd (hgood c h3) h4
    | reject c x y h3 h4 => exact absurd (hgood c h3) h4
  obtain ⟨rfl, rfl⟩ := hnil
  obtain ⟨R, w', undo, p, k1, k2, -, k3, -⟩ := h2 (.inl (by simp))
  exact ⟨H, hH, R, w', undo, k1, k2, k3⟩

/-- A verification sequence for the same terms with two random gates: a call that recorded fewer than 25 costs overlaps
with the identity by 1/2, up to 1e-8. -/
example : ∃ H, Hamiltonian.Of (n := 1) [!![0, 1; 1, 0], !![1, 0; 0, -1]] H ∧ ∃ rng : Rng,
    ∀ R w', H.compileRavSequence (.exact codeTau) 1 1 (some (1 / 2)) false 2 (Client.start rng).world = (.ok R, w') →
      R.costByStep.length < 25 → ∃ As : List (Matrix (Fin (2 ^ 1)) (Fin (2 ^ 1)) ℂ),
        1 / 2 - 1e-8 ≤ overlap 1 As.reverse.prod := by
  obtain ⟨H, hH⟩ := example_xz
  let rng : Rng := ⟨fun _ => ⟨1 / 2, by norm_num⟩, fun i => i, 0, 0⟩
  refine ⟨H, hH, rng, fun R w' h hlt => ?_⟩
  have hst : ∀ i, Rav.stepTime 1 (Client.start rng).world.rng i = 1 / 2 := by
    intro i
    show Rav.signedTime 1 (1 / 2) (1 / 2) = 1 / 2
    unfold Rav.signedTime
    rw [if_pos (by norm_num)]
    norm_num
  have htot : ∀ k, Rav.totalTime 1 (Client.start rng).world.rng k = k / 2 := by
    intro k
    unfold Rav.totalTime
    simp only [hst]
    rw [List.map_const', List.sum_replicate, List.length_range, nsmul_eq_mul, abs_of_pos (by norm_num)]
    ring
  obtain ⟨es, undo, As, -, -, h1⟩ := C64_rav_distance (.start rng) le_rfl hH (m := 1) (by norm_num)
    (by rw [xz_lambda]; norm_num) (ε := 12e-12)
    (by unfold codeTau; norm_num) (k := 2) (K := 25) le_rfl (fun j hj => by rw [htot]; interval_cases j <;> norm_num)
    (by rw [htot]; norm_num) (by norm_num) (by norm_num) (xzBudget _ (by norm_num)) h hlt
  refine ⟨As, ?_⟩
  have hE : costErr 1 codeTau 12e-12 (driftErr 1 codeTau 12e-12 (2 + 1)) 25 ≤ 1e-8 := by
    have h := (xzBudget 26 (by norm_num)).lim
    have h' := (C56_budget (n := 1) (k := 3) (t := codeTau) (ε := 12e-12) code_accurate
      (by unfold codeTau; norm_num) (by norm_num) (by unfold stepErr codeTau; norm_num)).2
    unfold costErr
    unfold driftLimit at h
    have h0 := driftErr_nonneg (n := 1) (k := 26) (t := codeTau) (ε := 12e-12) (by unfold codeTau; norm_num) (by norm_num)
    have h3 := driftErr_nonneg (n := 1) (k := 3) (t := codeTau) (ε := 12e-12) (by unfold codeTau; norm_num) (by norm_num)
    unfold stepErr at h'
    generalize driftErr 1 codeTau 12e-12 (2 + 1) = x at *
    generalize driftErr 1 codeTau 12e-12 (25 + 1) = y at *
    unfold codeTau at *
    norm_num at *
    nlinarith
  linarith

end Stoq
