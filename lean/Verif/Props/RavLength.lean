import Verif.Props.ContinuousStoq
import Verif.Props.HamiltonianRav
import Verif.Proofs.Renewal

/-!
# C80: the verification sequence of a Hamiltonian

The random part of `compile_rav_sequence` is a loop that ends when enough random times have been added up.  Here the
random numbers are independent and uniform: how long the loop takes, and that the whole call can succeed.
-/

namespace Stoq

open MeasureTheory World Compiler Matrix

variable {n : ℕ} {Ms : List (Matrix (Fin (2 ^ n)) (Fin (2 ^ n)) ℂ)} {H : Hamiltonian}

theorem totalTime_start {m : ℝ} (hm : 0 ≤ m) (t : Rng.Tape) (k : ℕ) :
    Rav.totalTime m (Rng.start t) k = m * evenSum t.1 k := by
  unfold Rav.totalTime evenSum
  rw [Finset.mul_sum, ← List.sum_toFinset _ List.nodup_range, List.toFinset_range]
  refine Finset.sum_congr rfl fun i _ => ?_
  have h0 : 0 ≤ m * (t.1 (2 * i) : ℝ) := mul_nonneg hm (t.1 (2 * i)).2.1
  unfold Rav.stepTime Rav.signedTime
  simp only [Rng.start, zero_add]
  split
  · exact abs_of_nonneg h0
  · rw [abs_neg]; exact abs_of_nonneg h0

/-- The plan of the call, with every source of random numbers. -/
theorem hrav_follows {c : Client} {Cs : List Compiler} (hs : Session 0 c Cs)
    (hex : ∀ x ∈ c.world.entries, x.toVal.Exact) (hn : 1 ≤ n) (hH : H.Of Ms) (time : ℝ) {m : ℝ} (hm : 0 ≤ m)
    (threshold : Option ℝ) {b : Bool} {prims : List Primitive} (hp : H.getUnitaryPrimitives 0 m b = .ok prims)
    (fuel : ℕ) (t' : Rng.Tape) :
    FollowsPlan n (Rav.plan n (Rav.evolutions (Rav.evolveGate 0 prims H.applyTo) m time fuel 0)
      (Metropolis.propose 0.5 (Metropolis.one (createRandomEntryVal 0 (2 ^ n) prims none)) 1) 0.1
        (((2 : ℝ) ^ 2 ^ n) ^ 2) threshold False 10000) (c.world.reseed t')
      (H.compileRavSequence 0 time m threshold b fuel (c.world.reseed t')) := by
  obtain ⟨prims', hp', hval, -⟩ := C50_primitives hn hH hm b
  rw [hp] at hp'
  cases hp'
  have hD := hH.terms.1
  have hT : CompilerUsable H.dimension prims false := by
    refine ⟨⟨by rw [hD]; positivity, fun q hq => by rw [hD]; exact valid_dimension (hval q hq)⟩, ?_, by simp⟩
    rw [primitives_eq hp]
    intro h
    have := hH.subsets_pos b
    rw [List.map_eq_nil_iff.mp h] at this
    exact lt_irrefl _ this
  have hpost := hrav_post H prims m time threshold fuel (hs.ok.1.wf.reseed t')
  rw [Wp, ← hrav_eq hp] at hpost
  have := plan_of_post (w := c.world.reseed t') (G := fun v => ∃ t, RavGate 0 prims H.applyTo t v) hD hex (fun v hv => by
    obtain ⟨t, hv⟩ := hv
    obtain ⟨s, -, -, -, hv⟩ := (ravGate_stoqGate hp hv).evolves hn hH
    exact hv.good) (fun v hv => generated_good hval (by rw [← hD]; exact hv)) hT hpost
  rw [show (ravCompiler H.dimension prims false none 0.5 0).proposal 0 =
    Metropolis.propose 0.5 (Metropolis.one (createRandomEntryVal 0 (2 ^ n) prims none)) 1 by rw [hD]; rfl, hD] at this
  exact this

/-- The number of gates of the random part. -/
noncomputable def randomGates (m time : ℝ) (t : Rng.Tape) : ℕ := needed (time / m) t.1

/-- C80: for a positive `max_t_step` the random part of `compile_rav_sequence` ends with probability one.  The number of
its gates exceeds `k` with probability at most `(time / max_t_step) ^ k / k!`, and its mean is between
`2 time / max_t_step` and 2 more than this. -/
theorem C80_random_part (hn : 1 ≤ n) (hH : H.Of Ms) {time m : ℝ} (hm : 0 < m) (htime : 0 < time)
    (threshold : Option ℝ) (b : Bool) (B : ℕ) :
    (∀ {c : Client} {Cs : List Compiler}, Session 0 c Cs → (∀ x ∈ c.world.entries, x.toVal.Exact) →
      ∀ᵐ t ∂Rng.tapes B, ∀ fuel ≥ randomGates m time t, ∃ R w' pre compiled undo,
        H.compileRavSequence 0 time m threshold b fuel (c.world.reseed t) = (.ok R, w') ∧
        w'.view R.sequence = some ⟨2 ^ n, false, pre ++ compiled, undo⟩ ∧ pre.length = randomGates m time t ∧
        ∀ i e, pre[i]? = some e → ∃ s, (H.termSubsets b)[t.2 i % (H.termSubsets b).length]? = some s ∧
          Evolves n (Hamiltonian.subsetSuffix s) (subsetSum Ms s) (Rav.signedTime m (t.1 (2 * i)) (t.1 (2 * i + 1))) e) ∧
    (∀ k : ℕ, Rng.tapes B {t | k < randomGates m time t} ≤ ENNReal.ofReal ((time / m) ^ k / k.factorial)) ∧
    ENNReal.ofReal (2 * (time / m)) ≤ ∫⁻ t, (randomGates m time t : ENNReal) ∂Rng.tapes B ∧
    ∫⁻ t, (randomGates m time t : ENNReal) ∂Rng.tapes B ≤ ENNReal.ofReal (2 * (time / m) + 2) := by
  have hfst : MeasurePreserving (Prod.fst : Rng.Tape → _) (Rng.tapes B) uniformTape := measurePreserving_fst
  have hx : 0 < time / m := by positivity
  have hmeas : Measurable (needed (time / m)) := measurable_needed _
  refine ⟨?_, fun k => ?_, ?_⟩
  · intro c Cs hs hex
    filter_upwards [hfst.quasiMeasurePreserving.ae (ae_reached (time / m))] with t ht fuel hfuel
    obtain ⟨prims, hp, -, -⟩ := C50_primitives hn hH hm.le b
    have hspec := needed_spec ht
    obtain ⟨pre, h4, h5, h6⟩ := Rav.evolutions_tape (gate := Rav.evolveGate 0 prims H.applyTo) (time := time) (total := 0)
      (r := Rng.start t) (P := fun t j v => ∃ s, (H.termSubsets b)[j % (H.termSubsets b).length]? = some s ∧
        Evolves n (Hamiltonian.subsetSuffix s) (subsetSum Ms s) t v) hm.le
      (fun t r ht => evolveGate_eq hn hH hm.le hp ht r) hfuel
      (fun j hj => by
        rw [zero_add, totalTime_start hm.le]
        exact (lt_div_iff₀' hm).mp ((hspec j).mp hj))
      (by
        rw [zero_add, totalTime_start hm.le]
        exact (div_le_iff₀' hm).mp (Nat.sInf_mem (s := {k | time / m ≤ evenSum t.1 k}) ht))
    obtain ⟨R, w', compiled, undo, h7, h8⟩ := FollowsPlan.ok
      (hrav_follows hs hex hn hH time hm.le threshold hp fuel t) (fun g r => Metropolis.propose_ok (p := 0.5) (by norm_num)
        (fun r => by
          obtain ⟨v, s, h, -⟩ := fresh_gate hn hH hm.le hp r
          exact ⟨[v], _, Metropolis.one_ok_iff.mpr ⟨v, h, rfl⟩⟩) 1 g r) h4
    refine ⟨R, w', pre, compiled, undo, h7, h8, h5, fun i e he => ?_⟩
    obtain ⟨s, g1, g2⟩ := h6 i e he
    refine ⟨s, ?_, ?_⟩
    · simpa [Rng.start] using g1
    · simpa [Rav.stepTime, Rng.start] using g2
  · refine le_trans (le_of_eq ?_) (needed_tail hx k)
    exact hfst.measure_preimage (measurableSet_lt measurable_const hmeas).nullMeasurableSet
  · have e : ∫⁻ t, (randomGates m time t : ENNReal) ∂Rng.tapes B = ∫⁻ ω, (needed (time / m) ω : ENNReal) ∂uniformTape :=
      hfst.lintegral_comp (f := fun ω => (needed (time / m) ω : ENNReal)) (measurable_from_nat.comp hmeas)
    rw [e]
    exact needed_mean hx

/-- C80: with `max_t_step = 0` and a positive time the loop never ends. -/
theorem C80_never_ends {c : Client} {Cs : List Compiler} (hs : Session 0 c Cs)
    (hex : ∀ x ∈ c.world.entries, x.toVal.Exact) (hn : 1 ≤ n) (hH : H.Of Ms) {time : ℝ} (htime : 0 < time)
    (threshold : Option ℝ) (b : Bool) (fuel : ℕ) :
    (H.compileRavSequence 0 time 0 threshold b fuel c.world).1 = .error .outOfFuel := by
  refine C52_rav_running hs hex hn hH le_rfl threshold b fun j _ => ?_
  have : Rav.totalTime 0 c.world.rng j = 0 := by
    unfold Rav.totalTime
    refine List.sum_eq_zero fun x hx => ?_
    obtain ⟨i, -, rfl⟩ := List.mem_map.mp hx
    unfold Rav.stepTime Rav.signedTime
    split <;> simp
  rw [this]
  exact htime

/-! ## The whole sequence -/

namespace Rng

variable {B : ℕ} {α β : Type}

/-- The program returns something of `Q` with probability at least `q`, whatever has to follow. -/
def Reach (B : ℕ) (m : PyM Rng α) (Q : α → Prop) (q : ℝ) : Prop :=
  ∀ (S : α → Set Tape) (y : ℝ), 0 ≤ y → y ≤ 1 → (∀ a, Q a → ENNReal.ofReal y ≤ tapes B (S a)) →
    ENNReal.ofReal (q * y) ≤ tapes B (after m S)

theorem Hits.reach {m : PyM Rng α} {Q : α → Prop} {q : ℝ} (h : Hits B m Q q) : Reach B m Q q := by
  intro S y h0 h1 hS
  have := h S 0 y le_rfl h0 h1 (fun a => by rw [ENNReal.ofReal_zero]; exact zero_le) hS
  rwa [mul_zero, add_zero] at this

theorem Reach.pure {a : α} {Q : α → Prop} (h : Q a) : Reach B (Pure.pure a : PyM Rng α) Q 1 := by
  intro S y h0 h1 hS
  rw [one_mul]
  refine (hS a h).trans (measure_mono fun t ht r hr => ?_)
  exact ⟨a, r, rfl, by rw [hr]; exact ht⟩

theorem Reach.bind {m : PyM Rng α} {k : α → PyM Rng β} {Q : α → Prop} {Q' : β → Prop} {q q' : ℝ} (h : Reach B m Q q)
    (h0 : 0 ≤ q') (h1 : q' ≤ 1) (hk : ∀ a, Q a → Reach B (k a) Q' q') : Reach B (m >>= k) Q' (q * q') := by
  intro S y hy0 hy1 hS
  rw [mul_assoc]
  refine (h (fun a => after (k a) S) (q' * y) (by positivity) (by nlinarith) fun a hQ => hk a hQ S y hy0 hy1 hS).trans
    (measure_mono fun t ht r hr => ?_)
  obtain ⟨a, r1, e1, e2⟩ := ht r hr
  obtain ⟨b, r2, e3, e4⟩ := e2 r1 rfl
  exact ⟨b, r2, by rw [PyM.bind_of_ok e1, e3], e4⟩

end Rng

/-- A gate of the random part is an evolution under the first subset with a positive probability. -/
theorem evolveGate_reach (hn : 1 ≤ n) (hH : H.Of Ms) {m : ℝ} (hm : 0 ≤ m) {b : Bool} {prims : List Primitive}
    (hp : H.getUnitaryPrimitives 0 m b = .ok prims) {s : List ℕ} (hs : (H.termSubsets b)[0]? = some s) {t : ℝ}
    (ht : |t| ≤ m) {B : ℕ} (hB : (H.termSubsets b).length ≤ B) :
    Rng.Reach B (Rav.evolveGate 0 prims H.applyTo t)
      (Evolves n (Hamiltonian.subsetSuffix s) (subsetSum Ms s) t) (1 / (H.termSubsets b).length) := by
  have hlen : prims.length = (H.termSubsets b).length := by rw [primitives_eq hp, List.length_map]
  obtain ⟨u, hu1, hu2, hu3⟩ := family_exact hn hH hm (List.mem_of_getElem? hs) (abs_le.mp ht)
  have hget : prims[0]? = some (H.subsetPrimitive 0 m s) := by
    rw [primitives_eq hp, List.getElem?_map, hs]; rfl
  unfold Rav.evolveGate
  rw [hlen, ← mul_one (1 / _ : ℝ)]
  refine (Rng.Hits.choice hB (hH.subsets_pos b)).reach.bind zero_le_one le_rfl ?_
  rintro _ rfl
  rw [hget]
  simp only [Hamiltonian.subsetPrimitive]
  rw [hu1, hH.applyTo]
  change Rng.Reach B (PyM.lift (EntryVal.new u _)) _ _
  rw [hu2]
  exact Rng.Reach.pure hu3

/-- The random part consists of `k` evolutions under the same matrix for times close to the largest possible one with
a positive probability. -/
theorem evolutions_reach {P : ℝ → EntryVal → Prop} {B : ℕ} {gate : ℝ → PyM Rng EntryVal} {m time u0 q : ℝ} (hm : 0 ≤ m)
    (hu0 : 0 ≤ u0 ∧ u0 ≤ 1) (hq : 0 ≤ q ∧ q ≤ 1) (hgate : ∀ t, |t| ≤ m → Rng.Reach B (gate t) (P t) q) {k : ℕ} :
    ∀ {fuel : ℕ} {total : ℝ}, k ≤ fuel → (1 ≤ k → total < time ∧ total + (k - 1) * m ≤ time) →
      time ≤ total + k * (m * u0) →
      Rng.Reach B (Rav.evolutions gate m time fuel total) (fun vs => ∃ ts, List.Forall₂ P ts vs ∧ ts.length = k ∧
        ∀ t ∈ ts, m * u0 ≤ t ∧ t ≤ m) (((1 - u0) * (4 / 5 * q)) ^ k) := by
  induction k with
  | zero =>
    intro fuel total _ _ h
    rw [pow_zero]
    have h : time ≤ total := by simpa using h
    have e : Rav.evolutions gate m time fuel total = pure [] := by
      cases fuel <;> rw [Rav.evolutions, if_neg (not_lt.mpr h)]
    rw [e]
    exact Rng.Reach.pure ⟨[], .nil, rfl, by simp⟩
  | succ k ih =>
    intro fuel total hfuel h1 h2
    obtain ⟨fuel, rfl⟩ : ∃ f, fuel = f + 1 := ⟨fuel - 1, by omega⟩
    obtain ⟨h3, h4⟩ := h1 (by omega)
    push_cast at h2 h4
    rw [Rav.evolutions, if_pos h3, pow_succ', mul_assoc, mul_assoc]
    have hpow0 : 0 ≤ ((1 - u0) * (4 / 5 * q)) ^ k := pow_nonneg (mul_nonneg (by linarith [hu0.2]) (by linarith [hq.1])) _
    have hpow1 : ((1 - u0) * (4 / 5 * q)) ^ k ≤ 1 :=
      pow_le_one₀ (mul_nonneg (by linarith [hu0.2]) (by linarith [hq.1]))
        (mul_le_one₀ (by linarith [hu0.1]) (by linarith [hq.1]) (by linarith [hq.2]))
    refine (Rng.Hits.interval hu0.1 hu0.2 le_rfl).reach.bind
      (mul_nonneg (by norm_num) (mul_nonneg hq.1 hpow0))
      (mul_le_one₀ (by norm_num) (mul_nonneg hq.1 hpow0) (mul_le_one₀ hq.2 hpow0 hpow1)) fun u hu => ?_
    have h45 : Rng.Reach B Rng.randomSample (fun v => 0 ≤ v ∧ v < 4 / 5) (4 / 5) := by
      have := (Rng.Hits.interval (B := B) (x := 0) (y := 4 / 5) le_rfl (by norm_num) (by norm_num)).reach
      rwa [sub_zero] at this
    refine h45.bind
      (mul_nonneg hq.1 hpow0) (mul_le_one₀ hq.2 hpow0 hpow1) fun v hv => ?_
    have hv2 : (v : ℝ) < 4 / 5 := hv.2
    have hu1 : u0 ≤ (u : ℝ) := hu.1
    have hu2 : (u : ℝ) < 1 := hu.2
    have hu3 : 0 ≤ (u : ℝ) := hu0.1.trans hu1
    have e : Rav.signedTime m u v = m * u := by
      unfold Rav.signedTime
      rw [if_pos (by norm_num; linarith)]
    have hmu : 0 ≤ m * (u : ℝ) := mul_nonneg hm hu3
    rw [e, abs_of_nonneg hmu]
    refine (hgate _ (by rw [abs_of_nonneg hmu]; nlinarith)).bind hpow0 hpow1 fun g hg => ?_
    rw [← mul_one (((1 - u0) * (4 / 5 * q)) ^ k)]
    refine (ih (fuel := fuel) (total := total + m * u) (by omega) (fun hk => ?_) ?_).bind zero_le_one le_rfl fun vs hvs => ?_
    · have hk : (1 : ℝ) ≤ k := by exact_mod_cast hk
      constructor
      · rcases hm.eq_or_lt with rfl | hm
        · simpa using h3
        · nlinarith
      · nlinarith
    · nlinarith
    · obtain ⟨ts, g1, g2, g3⟩ := hvs
      refine Rng.Reach.pure ⟨m * u :: ts, .cons hg g1, by simp [g2], ?_⟩
      intro t ht
      rcases List.mem_cons.mp ht with rfl | ht
      · exact ⟨by nlinarith, by nlinarith⟩
      · exact g3 t ht

theorem evolution_list (M : Matrix (Fin (2 ^ n)) (Fin (2 ^ n)) ℂ) (ts : List ℝ) :
    (ts.map fun t => evolution M t).reverse.prod = evolution M ts.sum := by
  induction ts with
  | nil => simp [evolution_zero]
  | cons t ts ih =>
    rw [List.map_cons, List.reverse_cons, List.prod_append, ih, List.prod_singleton, List.sum_cons, add_comm t, evolution_add]

/-- The call returns a sequence whose product is close enough to the identity. -/
def RavSucceeds (n : ℕ) (threshold : Option ℝ) (out : Except PyErr CompilerResult × World) : Prop :=
  ∃ gates costs, ReturnsGates gates costs out ∧ Metropolis.GoodEnough threshold (1 - overlap 1 (circuit n gates))

/-- C80: for `0 < time < 10000 max_t_step` and every threshold less than one, `compile_rav_sequence` returns a sequence
whose product is close enough to the identity with a positive probability, which is the same for all histories of the
session. -/
theorem C80_rav_possible (hn : 1 ≤ n) (hH : H.Of Ms) {time m : ℝ} (htime : 0 < time) (hlim : time < 10000 * m)
    {threshold : Option ℝ} (ht : 0 < Metropolis.allowed threshold) (b : Bool) {B : ℕ} (hB : n ≤ B)
    (hB1 : (H.termSubsets b).length ≤ B) :
    ∃ δ : ℝ, 0 < δ ∧ ∀ {c : Client} {Cs : List Compiler}, Session 0 c Cs → (∀ x ∈ c.world.entries, x.toVal.Exact) →
      ∀ fuel : ℕ, 10000 ≤ fuel → ENNReal.ofReal δ ≤ Rng.tapes B {t' | RavSucceeds n threshold
        (H.compileRavSequence 0 time m threshold b fuel (c.world.reseed t'))} := by
  have hm : 0 < m := by linarith
  obtain ⟨prims, hp, -, -⟩ := C50_primitives hn hH hm.le b
  have hs0 := List.getElem?_eq_getElem (hH.subsets_pos b)
  generalize (H.termSubsets b)[0]'(hH.subsets_pos b) = s at hs0
  have hs := List.mem_of_getElem? hs0
  obtain ⟨-, hM⟩ := hH.subset (hH.subset_lt hs).2
  set M := subsetSum Ms s with hMdef
  -- the number of random gates
  set K := ⌊time / m⌋₊ + 1 with hK
  have hx : 0 < time / m := by positivity
  have hK1 : ((K : ℝ) - 1) * m ≤ time := by
    rw [hK]; push_cast
    rw [add_sub_cancel_right]
    exact (le_div_iff₀ hm).mp (Nat.floor_le hx.le)
  have hK2 : time < K * m := by
    rw [hK]; push_cast
    exact (div_lt_iff₀ hm).mp (Nat.lt_floor_add_one _)
  have hK3 : K ≤ 10000 := by
    rw [hK]
    have : ⌊time / m⌋₊ < 10000 := (Nat.floor_lt hx.le).mpr (by
      rw [div_lt_iff₀ hm]; exact_mod_cast hlim)
    omega
  have hK0 : (0 : ℝ) < K := by rw [hK]; positivity
  -- evolutions for short times are close to the identity
  obtain ⟨y, hy0, hy1⟩ := exists_between ht
  obtain ⟨η, hη, hη2⟩ : ∃ η > 0, ∀ t : ℝ, |t| < η → 1 - overlap 1 (evolution M t) < y := by
    have hc : Continuous fun t : ℝ => 1 - overlap (1 : Matrix (Fin (2 ^ n)) (Fin (2 ^ n)) ℂ) (evolution M t) := by
      unfold overlap
      exact continuous_const.sub (Continuous.div_const (continuous_norm.comp (Continuous.matrix_trace
        (continuous_const.matrix_mul (evolution_continuous M)))) _)
    have h0 : 1 - overlap (1 : Matrix (Fin (2 ^ n)) (Fin (2 ^ n)) ℂ) (evolution M 0) < y := by
      rw [evolution_zero, overlap_self (by positivity) (Submonoid.one_mem _)]
      simpa using hy0
    obtain ⟨η, h1, h2⟩ := Metric.mem_nhds_iff.mp (hc.continuousAt.eventually (gt_mem_nhds h0))
    exact ⟨η, h1, fun t ht => h2 (by rwa [Metric.mem_ball, Real.dist_eq, sub_zero])⟩
  obtain ⟨u0, hu1, hu2, hu3, hu4⟩ : ∃ u0 : ℝ, 0 ≤ u0 ∧ u0 < 1 ∧ time ≤ K * (m * u0) ∧ K * m * (1 - u0) < η := by
    have hKm : 0 < K * m := by positivity
    refine ⟨max (time / (K * m)) (1 - η / (2 * (K * m))), ?_, ?_, ?_, ?_⟩
    · exact le_max_of_le_left (by positivity)
    · exact max_lt (by rwa [div_lt_one hKm]) (by linarith [show 0 < η / (2 * (K * m)) by positivity])
    · rw [← mul_assoc]
      refine le_trans (le_of_eq ?_) (mul_le_mul_of_nonneg_left (le_max_left _ _) hKm.le)
      field_simp
    · have : 1 - max (time / (K * m)) (1 - η / (2 * (K * m))) ≤ η / (2 * (K * m)) := by
        linarith [le_max_right (time / (K * m)) (1 - η / (2 * (K * m)))]
      calc K * m * (1 - max (time / (K * m)) (1 - η / (2 * (K * m)))) ≤ K * m * (η / (2 * (K * m))) :=
            mul_le_mul_of_nonneg_left this hKm.le
        _ = η / 2 := by field_simp
        _ < η := by linarith
  -- the gates that undo the random part
  obtain ⟨v, hv1, hv2⟩ := stoq_result hn hH hm.le hp hs (t := -m) (.inl ⟨le_rfl, by linarith⟩)
  have hsource := stoq_source hn hH hm.le hp hB hB1
  obtain ⟨δ, k1, k2, k3⟩ := Metropolis.wins_possible (cap := ((2 : ℝ) ^ 2 ^ n) ^ 2) (p := 0.5) (threshold := threshold)
    hsource (by positivity) (by norm_num) (by norm_num)
    (ws := List.replicate K [v]) (fun l hl => by
      rw [(List.mem_replicate.mp hl).2]
      obtain ⟨r, r', h⟩ := hv1
      exact ⟨r, r', Metropolis.one_ok_iff.mpr ⟨v, h, rfl⟩⟩) hy1 (m := 10000) (by simpa using hK3)
  have hq : (0 : ℝ) < 1 / (H.termSubsets b).length := by
    have : (0 : ℝ) < (H.termSubsets b).length := by exact_mod_cast hH.subsets_pos b
    positivity
  have hq1 : 1 / ((H.termSubsets b).length : ℝ) ≤ 1 := by
    have : (1 : ℝ) ≤ (H.termSubsets b).length := by exact_mod_cast hH.subsets_pos b
    rw [div_le_one (by linarith)]; exact this
  refine ⟨((1 - u0) * (4 / 5 * (1 / (H.termSubsets b).length))) ^ K * δ,
    mul_pos (pow_pos (mul_pos (by linarith) (by linarith)) _) k1, ?_⟩
  intro c Cs hsess hex fuel hfuel
  have hreach := evolutions_reach (B := B) (gate := Rav.evolveGate 0 prims H.applyTo) (time := time) hm.le ⟨hu1, hu2.le⟩
    ⟨hq.le, hq1⟩ (fun t ht => evolveGate_reach hn hH hm.le hp hs0 ht hB1) (k := K) (fuel := fuel) (total := 0)
    (by omega) (fun _ => ⟨htime, by rw [zero_add]; exact hK1⟩) (by rw [zero_add]; exact hu3)
  set prop := Metropolis.propose 0.5 (Metropolis.one (createRandomEntryVal 0 (2 ^ n) prims none)) 1 with hprop
  refine (hreach (fun pre => Rng.after (Metropolis.run n (circuit n pre)ᴴ threshold 0.1 (((2 : ℝ) ^ 2 ^ n) ^ 2) prop 10000
    ⟨[], 0⟩) fun tr => {_t | Metropolis.GoodEnough threshold (1 - overlap 1 (circuit n (pre ++ Rav.final tr)))}) δ k1.le k2
    fun pre hpre => ?_).trans (measure_mono fun t' ht' => ?_)
  · obtain ⟨ts, g1, g2, g3⟩ := hpre
    have hall : List.Forall₂ (fun e p => ∃ s, Evolves n s p.1 p.2 e) (pre ++ List.replicate K v)
        ((ts ++ List.replicate K (-m)).map fun t => (M, t)) := by
      rw [List.map_append]
      refine List.rel_append ?_ ?_
      · rw [List.forall₂_map_right_iff]
        exact g1.flip.imp fun _ _ h => ⟨_, h⟩
      · rw [List.map_replicate]
        clear_value K
        clear * - hv2
        induction K with
        | zero => exact .nil
        | succ K ih => exact .cons ⟨_, hv2⟩ ih
    have hphase := circuit_evolves hall
    rw [List.map_map] at hphase
    have e1 : ((ts ++ List.replicate K (-m)).map ((fun p => evolution p.1 p.2) ∘ fun t => (M, t))).reverse.prod =
        evolution M (ts.sum - K * m) := by
      rw [show ((fun p : Matrix (Fin (2 ^ n)) (Fin (2 ^ n)) ℂ × ℝ => evolution p.1 p.2) ∘ fun t => (M, t)) =
        fun t => evolution M t from rfl, evolution_list, List.sum_append, List.sum_replicate, nsmul_eq_mul]
      congr 1
      ring
    rw [e1] at hphase
    have hsum : |ts.sum - K * m| < η := by
      have h1 : ts.sum ≤ K * m := by
        have := List.sum_le_card_nsmul ts m fun t ht => (g3 t ht).2
        rwa [g2, nsmul_eq_mul] at this
      have h2 : K * (m * u0) ≤ ts.sum := by
        have := List.card_nsmul_le_sum ts (m * u0) fun t ht => (g3 t ht).1
        rwa [g2, nsmul_eq_mul] at this
      rw [abs_lt]
      constructor <;> nlinarith
    have hU : circuit n pre ∈ unitaryGroup (Fin (2 ^ n)) ℂ := by
      have h1 : List.Forall₂ (fun e p => ∃ s, Evolves n s p.1 p.2 e) pre (ts.map fun t => (M, t)) := by
        rw [List.forall₂_map_right_iff]
        exact g1.flip.imp fun _ _ h => ⟨_, h⟩
      obtain ⟨z, hz, h2⟩ := circuit_evolves h1
      rw [List.map_map, show ((fun p : Matrix (Fin (2 ^ n)) (Fin (2 ^ n)) ℂ × ℝ => evolution p.1 p.2) ∘ fun t => (M, t)) =
        fun t => evolution M t from rfl, evolution_list] at h2
      have h3 : evolution M ts.sum * star (evolution M ts.sum) = 1 :=
        mem_unitaryGroup_iff.mp (evolution_unitary hM ts.sum)
      rw [h2, mem_unitaryGroup_iff, star_smul, smul_mul_smul_comm, h3, Complex.star_def, Complex.mul_conj,
        Complex.normSq_eq_norm_sq, hz]
      simp
    refine (k3 (circuit n pre)ᴴ (Unitary.star_mem hU) ?_ 0.1 (by norm_num) 0 le_rfl).prob.trans
      (measure_mono fun t' ht' r hr => ?_)
    · unfold Metropolis.cost
      rw [show (List.replicate K [v]).flatten = List.replicate K v by
        rw [← List.map_replicate (f := fun x => [x])]; exact flatten_singletons _, ← Rav.overlap_whole,
        overlap_congr (.refl 1) hphase]
      exact (hη2 _ hsum).le
    · obtain ⟨tr, r', e2, e3⟩ := ht' r hr
      refine ⟨tr, r', e2, ?_⟩
      have e : (tr.map Metropolis.State.gates).getLast?.getD [] = Rav.final tr := by
        rw [List.getLast?_map, Rav.final]
        cases tr.getLast? <;> rfl
      have e3 : Metropolis.GoodEnough threshold
        (1 - overlap (circuit n pre)ᴴ (circuit n ((tr.map Metropolis.State.gates).getLast?.getD []))) := e3
      rw [e, ← Rav.overlap_whole] at e3
      exact e3
  · obtain ⟨pre, r1, e1, e2⟩ := ht' (Rng.start t') (Rng.rest_start t')
    obtain ⟨tr, r2, e3, e4⟩ := e2 r1 rfl
    have hf := hrav_follows hsess hex hn hH time hm.le threshold hp fuel t'
    have hplan : Rav.plan n (Rav.evolutions (Rav.evolveGate 0 prims H.applyTo) m time fuel 0) prop 0.1
        (((2 : ℝ) ^ 2 ^ n) ^ 2) threshold False 10000 (c.world.reseed t').rng = (.ok (pre, tr), r2) := by
      unfold Rav.plan
      rw [show (c.world.reseed t').rng = Rng.start t' from rfl, PyM.bind_of_ok e1, if_neg not_false,
        show (10000 : ℤ).toNat = 10000 from rfl, PyM.bind_of_ok e3]
      rfl
    unfold FollowsPlan at hf
    rw [hplan] at hf
    obtain ⟨-, R, hR, -, ⟨undo, hv⟩, -⟩ := hf
    exact ⟨_, _, ⟨R, hR, rfl, _, hv, rfl⟩, e4⟩

/-! ## Examples -/

/-- Time 1 with steps up to 1/10 under X + Z: on average there are between 20 and 22 random gates, more than 50 with
probability less than `10 ^ (-10)`, and the whole sequence reaches the threshold 0.9999 with positive probability. -/
example : ∃ H, Hamiltonian.Of (n := 1) [!![0, 1; 1, 0], !![1, 0; 0, -1]] H ∧
    ENNReal.ofReal 20 ≤ ∫⁻ t, (randomGates (1 / 10) 1 t : ENNReal) ∂Rng.tapes 2 ∧
    ∫⁻ t, (randomGates (1 / 10) 1 t : ENNReal) ∂Rng.tapes 2 ≤ ENNReal.ofReal 22 ∧
    Rng.tapes 2 {t | 50 < randomGates (1 / 10) 1 t} ≤ ENNReal.ofReal (1 / 10 ^ 10) ∧
    ∃ δ : ℝ, 0 < δ ∧ ∀ rng : Rng, ENNReal.ofReal δ ≤ Rng.tapes 2 {t' | RavSucceeds 1 (some (9999 / 10000))
      (H.compileRavSequence 0 1 (1 / 10) (some (9999 / 10000)) false 10000 ((Client.start rng).world.reseed t'))} := by
  obtain ⟨H, hH⟩ := example_xz
  have hlen := hH.length
  obtain ⟨-, h2, h3, h4⟩ := C80_random_part le_rfl hH (time := 1) (m := 1 / 10) (by norm_num) (by norm_num)
    (some (9999 / 10000)) false 2
  obtain ⟨δ, h5, h6⟩ := C80_rav_possible le_rfl hH (time := 1) (m := 1 / 10) (by norm_num) (by norm_num)
    (threshold := some (9999 / 10000)) (by norm_num [Metropolis.allowed]) false (B := 2) (by norm_num) (by
      rw [C50_single, List.length_map, List.length_range, hlen]; rfl)
  refine ⟨H, hH, ?_, ?_, (h2 50).trans (ENNReal.ofReal_le_ofReal ?_), δ, h5,
    fun rng => h6 (.start rng) (by simp [Client.start]) _ le_rfl⟩
  · convert h3 using 2; norm_num
  · convert h4 using 2; norm_num
  · rw [show Nat.factorial 50 = 30414093201713378043612608166064768844377641568960512000000000000 by simp [Nat.factorial]]
    norm_num

end Stoq
