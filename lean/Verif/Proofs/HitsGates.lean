import Verif.Proofs.HitsWalk
import Verif.Spec.Continuous

/-! # Random gates with parameters come close to every gate that can be drawn -/

namespace Stoq

open Compiler Matrix MeasureTheory
open scoped Matrix.Norms.L2Operator

variable {B : ℕ}

namespace Rng

theorem randomSample_result {u : ℝ} (h : Result Rng.randomSample u) : 0 ≤ u ∧ u < 1 := by
  obtain ⟨r, r', h⟩ := h
  cases h
  exact (r.unif r.upos).2

theorem Hits.choiceOpt {n : ℕ} {probs : Option (List ℝ)} (hB : n ≤ B) (hc : match probs with
      | none => 0 < n
      | some p => ValidP n p) {i : ℕ} (h : Result (Rng.choiceOpt n probs) i) :
    i < n ∧ ∃ q : ℝ, 0 < q ∧ q ≤ 1 ∧ Hits B (Rng.choiceOpt n probs) (· = i) q := by
  cases probs with
  | none =>
    have hi := choice_result h
    refine ⟨hi, 1 / n, by positivity, ?_, Hits.choice hB hi⟩
    rw [div_le_one (by exact_mod_cast hc)]
    exact_mod_cast hc
  | some p =>
    obtain ⟨r, r', h⟩ := h
    have e : Rng.choiceP n p r = _ := h
    rw [choiceP_eq hc] at e
    cases e
    obtain ⟨h1, h2, h3⟩ := search_spec hc (r.unif r.upos) rfl
    have hi : searchsortedRight ((cumsum p).map (· / p.sum)) (r.unif r.upos) < p.length := by rw [hc.len]; exact h1
    refine ⟨h1, _, ?_, ?_, Hits.choiceOpt_some hc hi⟩
    · rw [List.take_succ_eq_append_getElem hi, List.sum_append, List.sum_singleton] at h3
      exact div_pos (by linarith) hc.sum_pos
    · rw [div_le_one hc.sum_pos]
      exact List.single_le_sum hc.nonneg _ (List.getElem_mem hi)

theorem Total.choiceOpt {n : ℕ} {probs : Option (List ℝ)} (hB : n ≤ B) (hc : match probs with
      | none => 0 < n
      | some p => ValidP n p) : Total B (Rng.choiceOpt n probs) := by
  have h : ∃ i, Result (Rng.choiceOpt n probs) i := by
    cases probs with
    | none =>
      obtain ⟨i, h1, -⟩ := Rng.choice_ok hc (Rng.start (fun _ => ⟨0, by simp⟩, fun _ => 0))
      exact ⟨i, _, _, h1⟩
    | some p => exact ⟨_, _, _, Rng.choiceP_eq hc (Rng.start (fun _ => ⟨0, by simp⟩, fun _ => 0))⟩
  obtain ⟨i, hi⟩ := h
  obtain ⟨-, q, -, -, h⟩ := Hits.choiceOpt hB hc hi
  exact h.total

end Rng

/-! ## Parameter values -/

theorem randomValue_hits {p : Parameter} (hp : p.minValue ≤ p.maxValue) {v : ℝ} (h : Rng.Result p.randomValue v) {η : ℝ}
    (hη : 0 < η) : ∃ q : ℝ, 0 < q ∧ q ≤ 1 ∧ Rng.Hits B p.randomValue (fun v' => |v' - v| ≤ η) q := by
  unfold Parameter.randomValue at h ⊢
  obtain ⟨u, hu, h⟩ := Rng.result_bind h
  obtain ⟨hu0, hu1⟩ := Rng.randomSample_result hu
  rw [Rng.result_pure h]
  set w := p.maxValue - p.minValue with hw
  have hw0 : 0 ≤ w := by linarith
  have hpos : 0 < η / (w + 1) := by positivity
  set y := min 1 (u + η / (w + 1))
  have hy : u < y := lt_min hu1 (by linarith)
  refine ⟨y - u, by linarith, by linarith [min_le_left 1 (u + η / (w + 1))], ?_⟩
  refine (Rng.Hits.interval (B := B) hu0 hy.le (min_le_left _ _)).map fun u' _ hu' => ?_
  have h1 : u' - u ≤ η / (w + 1) := by linarith [hu'.2, min_le_right 1 (u + η / (w + 1))]
  rw [show u' * w + p.minValue - (u * w + p.minValue) = (u' - u) * w by ring,
    abs_of_nonneg (mul_nonneg (by linarith [hu'.1]) hw0)]
  calc (u' - u) * w ≤ η / (w + 1) * (w + 1) := by gcongr; linarith
    _ = η := by field_simp

theorem randomParameterValues_hits {η : ℝ} (hη : 0 < η) : ∀ {ps : List Parameter} {vs : List ℝ},
    (∀ p ∈ ps, p.minValue ≤ p.maxValue) → Rng.Result (randomParameterValues ps) vs →
    ∃ q : ℝ, 0 < q ∧ q ≤ 1 ∧
      Rng.Hits B (randomParameterValues ps) (fun vs' => List.Forall₂ (fun x y => |y - x| ≤ η) vs vs') q
  | [], vs, _, h => by
    rw [Rng.result_pure h]
    exact ⟨1, one_pos, le_rfl, Rng.Hits.pure .nil⟩
  | p :: ps, vs, hp, h => by
    unfold randomParameterValues at h ⊢
    obtain ⟨v, hv, h⟩ := Rng.result_bind h
    obtain ⟨vs', hvs, h⟩ := Rng.result_bind h
    rw [Rng.result_pure h]
    obtain ⟨q1, h1, h2, h3⟩ := randomValue_hits (B := B) (hp p List.mem_cons_self) hv hη
    obtain ⟨q2, h4, h5, h6⟩ := randomParameterValues_hits hη (fun p hp' => hp p (List.mem_cons_of_mem _ hp')) hvs
    refine ⟨q1 * q2, mul_pos h1 h4, mul_le_one₀ h2 h4.le h5, h3.bind h4.le h5 (fun x _ hx => ?_) fun x _ => ?_⟩
    · exact h6.map fun xs _ hxs => .cons hx hxs
    · exact h6.total.bind fun _ _ => Rng.Total.pure _

theorem randomParameterValues_total : ∀ (ps : List Parameter), Rng.Total B (randomParameterValues ps)
  | [] => Rng.Total.pure _
  | p :: ps => by
    unfold randomParameterValues
    refine Rng.Total.bind ?_ fun v _ => (randomParameterValues_total ps).bind fun vs _ => Rng.Total.pure _
    unfold Parameter.randomValue
    exact Rng.Total.randomSample.bind fun _ _ => Rng.Total.pure _

theorem randomParameterValues_admits {pu : ParamUnitary} (h : ∀ p ∈ pu.parameters, p.minValue ≤ p.maxValue)
    {vs : List ℝ} (hv : Rng.Result (randomParameterValues pu.parameters) vs) : pu.Admits vs := by
  obtain ⟨r, r', hv⟩ := hv
  obtain ⟨vs', r2, h1, h2, h3⟩ := randomParameterValues_ok pu.parameters h r
  rw [hv] at h1
  cases h1
  exact ⟨h2, h3⟩

/-! ## The gate -/

/-- The matrices are the same up to a phase and errors of at most `ε` in the elements. -/
def NearElements (d : ℕ) (ε : ℝ) (u u' : Unitary) : Prop :=
  ∃ c : ℂ, ‖c‖ = 1 ∧ ∀ i < d, ∀ j < d, ‖u'.matrix.val i j - c * u.matrix.val i j‖ ≤ ε

/-- What `Primitive.Valid` says of the gate. -/
def GateValid (k : ℕ) (p : Primitive) : Prop :=
  match p.unitary with
  | .inl u => u.Exact (2 ^ k)
  | .inr pu => pu.dimension = 2 ^ k ∧ (∀ q ∈ pu.parameters, q.minValue ≤ q.maxValue) ∧
      ∀ values : List ℝ, values.length = pu.parameters.length →
        (∀ pv ∈ pu.parameters.zip values, pv.1.minValue ≤ pv.2 ∧ pv.2 ≤ pv.1.maxValue) →
        ∃ a, pu.parameterizedMatrix values = .ok a ∧ a.rows = 2 ^ k ∧ a.cols = 2 ^ k ∧
          a.toMatrix (2 ^ k) ∈ Matrix.unitaryGroup (Fin (2 ^ k)) ℂ

/-- What `Primitive.Valid` says of the qubits. -/
def QubitsValid (n k : ℕ) (p : Primitive) : Prop :=
  match p.allowedApplyTo with
  | none => True
  | some lists => ∀ l ∈ lists, l.Nodup ∧ l.length = k ∧ ∀ q ∈ l, 0 ≤ q ∧ q < (n : ℤ)

theorem asUnitary_valid {k : ℕ} {pu : ParamUnitary} {vs : List ℝ} (hd : pu.dimension = 2 ^ k) (hv : pu.Admits vs) {a : Arr}
    (ha : pu.parameterizedMatrix vs = .ok a) (hr : a.rows = 2 ^ k) (hc : a.cols = 2 ^ k)
    (hU : a.toMatrix (2 ^ k) ∈ Matrix.unitaryGroup (Fin (2 ^ k)) ℂ) :
    ∃ u, pu.asUnitary 0 vs = .ok u ∧ ∃ c : ℂ, ‖c‖ = 1 ∧ u.matrix = a.smul c := by
  obtain ⟨c, hc1, -, -, hc4⟩ := Unitary.new_exact (by positivity) hr hc hU (some pu.operationName)
    (some (buildDict (pu.parameters.zip vs) [])) false []
  refine ⟨⟨a.smul c, pu.operationName, buildDict (pu.parameters.zip vs) [], false, []⟩, ?_, c, hc1, rfl⟩
  rw [asUnitary_eq hv.1 (fun pv hpv => hv.2 pv hpv), ha, ok_bind, hd]
  exact hc4

theorem pickUnitary_total {k : ℕ} {p : Primitive} (hv : GateValid k p) : Rng.Total B (pickUnitary 0 p) := by
  unfold GateValid at hv
  unfold pickUnitary
  rcases hu : p.unitary with u | pu
  · exact Rng.Total.pure _
  · rw [hu] at hv
    obtain ⟨h1, h2, h3⟩ := hv
    refine (randomParameterValues_total _).bind fun vs hvs => ?_
    have ha := randomParameterValues_admits h2 hvs
    obtain ⟨a, h4, h5, h6, h7⟩ := h3 vs ha.1 ha.2
    obtain ⟨u, h8, -⟩ := asUnitary_valid h1 ha h4 h5 h6 h7
    exact (Rng.Hits.lift (Q := fun _ => True) h8 trivial).total

theorem pickUnitary_exact {k : ℕ} {p : Primitive} (hv : GateValid k p) {u : Unitary}
    (h : Rng.Result (pickUnitary 0 p) u) : u.Exact (2 ^ k) := by
  obtain ⟨r, r', h⟩ := h
  obtain ⟨u', r2, h1, h2⟩ := pickUnitary_valid hv r
  rw [h] at h1
  cases h1
  exact h2

theorem pickUnitary_hits {k : ℕ} {p : Primitive} (hv : GateValid k p) (hc : p.Continuous) {u : Unitary}
    (h : Rng.Result (pickUnitary 0 p) u) {ε : ℝ} (hε : 0 < ε) :
    ∃ q : ℝ, 0 < q ∧ q ≤ 1 ∧ Rng.Hits B (pickUnitary 0 p) (NearElements (2 ^ k) ε u) q := by
  unfold GateValid at hv
  unfold Primitive.Continuous at hc
  unfold pickUnitary at h ⊢
  rcases hu : p.unitary with u0 | pu
  · rw [hu] at h
    rw [Rng.result_pure h]
    exact ⟨1, one_pos, le_rfl, Rng.Hits.pure ⟨1, norm_one, fun i _ j _ => by simpa using hε.le⟩⟩
  · rw [hu] at hv hc h
    obtain ⟨h1, h2, h3⟩ := hv
    obtain ⟨vs, hvs, h⟩ := Rng.result_bind h
    have ha := randomParameterValues_admits h2 hvs
    obtain ⟨a, h4, h5, h6, h7⟩ := h3 vs ha.1 ha.2
    obtain ⟨u', h8, c, hc1, hc2⟩ := asUnitary_valid h1 ha h4 h5 h6 h7
    have := Rng.result_lift h
    rw [h8] at this
    cases this
    obtain ⟨η, hη, hcont⟩ := hc vs ha ε hε
    obtain ⟨q, hq0, hq1, hq⟩ := randomParameterValues_hits (B := B) hη h2 hvs
    refine ⟨q, hq0, hq1, ?_⟩
    have hq' := hq.bind (k := fun values => PyM.lift (pu.asUnitary 0 values)) (Q' := NearElements (2 ^ k) ε u)
      zero_le_one le_rfl (fun ws hws hnear => ?_) fun ws hws => ?_
    · rwa [mul_one] at hq'
    · have hb := randomParameterValues_admits h2 hws
      obtain ⟨b, k4, k5, k6, k7⟩ := h3 ws hb.1 hb.2
      obtain ⟨w, k8, d, hd1, hd2⟩ := asUnitary_valid h1 hb k4 k5 k6 k7
      obtain ⟨e, he1, he2⟩ := hcont ws hb hnear a b h4 k4
      refine Rng.Hits.lift k8 ⟨d * e / c, by rw [norm_div, norm_mul, hd1, he1, hc1, mul_one, div_one], fun i hi j hj => ?_⟩
      have hc0 : c ≠ 0 := by
        intro h0; rw [h0, norm_zero] at hc1; exact zero_ne_one hc1
      rw [hd2, hc2]
      change ‖d * b.val i j - d * e / c * (c * a.val i j)‖ ≤ ε
      rw [show d * b.val i j - d * e / c * (c * a.val i j) = d * (b.val i j - e * a.val i j) by field_simp, norm_mul, hd1, one_mul]
      exact he2 i (by rw [h1]; exact hi) j (by rw [h1]; exact hj)
    · have hb := randomParameterValues_admits h2 hws
      obtain ⟨b, k4, k5, k6, k7⟩ := h3 ws hb.1 hb.2
      obtain ⟨w, k8, -⟩ := asUnitary_valid h1 hb k4 k5 k6 k7
      exact (Rng.Hits.lift (Q := fun _ => True) k8 trivial).total

/-! ## The qubits -/

theorem entryNew_congr {u u' : Unitary} {qs : List ℤ} {v : EntryVal} (hd : u'.getDimension = u.getDimension)
    (h : EntryVal.new u qs = .ok v) : v = ⟨u, v.applyTo⟩ ∧ EntryVal.new u' qs = .ok ⟨u', v.applyTo⟩ := by
  unfold EntryVal.new at h ⊢
  rw [hd]
  simp only [bind, Except.bind, assertE, raiseUnless] at h ⊢
  split_ifs at h ⊢
  all_goals simp_all
  all_goals (subst h; simp)

theorem pickQubits_hits {n k : ℕ} {p : Primitive} {u : Unitary} (hk : 1 ≤ k) (hkn : k ≤ n) (hu : u.Exact (2 ^ k))
    (hB : n ≤ B) (hB' : ∀ lists, p.allowedApplyTo = some lists → lists.length ≤ B) {v : EntryVal}
    (h : Rng.Result (pickQubits n p u) v) : v = ⟨u, v.applyTo⟩ ∧
      ∃ q : ℝ, 0 < q ∧ q ≤ 1 ∧ ∀ u', u'.Exact (2 ^ k) → QubitsValid n k p →
        Rng.Hits B (pickQubits n p u') (· = ⟨u', v.applyTo⟩) q := by
  unfold pickQubits at h
  unfold QubitsValid
  rcases hl : p.allowedApplyTo with _ | lists
  · rw [hl] at h
    simp only at h
    obtain ⟨qs, hqs, h⟩ := Rng.result_bind h
    have hnew := Rng.result_lift h
    refine ⟨(entryNew_congr rfl hnew).1, ?_⟩
    unfold Rng.choiceNoReplace at hqs
    obtain ⟨-, -, hqs⟩ := Rng.result_bind hqs
    obtain ⟨order, ho, hqs⟩ := Rng.result_bind hqs
    have e := Rng.result_pure hqs
    obtain ⟨q, hq0, hq1, hq⟩ := Rng.Hits.shuffle (B := B) (N := Eq) (by simpa using hB) (by omega) ho
    replace hq := hq (List.range n) (List.forall₂_same.mpr fun _ _ => rfl)
    refine ⟨q, hq0, hq1, fun u' hu' _ => ?_⟩
    unfold pickQubits Rng.choiceNoReplace
    rw [hl]
    simp only
    rw [hu'.dim, show intLog2 (2 ^ k) = k from log2_pow k, PyM.bind_assoc']
    rw [hu.dim, show intLog2 (2 ^ k) = k from log2_pow k] at e
    rw [← one_mul q]
    have hrest : ∀ l, Rng.Result (Rng.shuffle (List.range n)) l →
        ∃ w, EntryVal.new u' ((l.take k).map Int.ofNat) = .ok w := by
      rintro l ⟨r, r', hlr⟩
      obtain ⟨l', r2, h1, h2⟩ := Rng.shuffle_perm (List.range n) r
      rw [hlr] at h1
      cases h1
      refine ⟨_, entryNew_nat ((h2.nodup_iff.mpr List.nodup_range).sublist (List.take_sublist _ _)) ?_ ?_⟩
      · rw [List.length_take, h2.length_eq, List.length_range, min_eq_left hkn, hu'.dim]
      · refine List.ne_nil_of_length_pos ?_
        rw [List.length_take, h2.length_eq, List.length_range, min_eq_left hkn]
        omega
    have htot : Rng.Total B (Rng.shuffle (List.range n) >>= fun perm => pure (perm.take k) >>= fun applyTo =>
        PyM.lift (EntryVal.new u' (applyTo.map Int.ofNat))) := by
      refine hq.total.bind fun l hlr => ?_
      obtain ⟨w, hw⟩ := hrest l hlr
      exact (Rng.Total.pure _).bind fun a ha => by
        rw [Rng.result_pure ha]
        exact (Rng.Hits.lift (Q := fun _ => True) hw trivial).total
    refine (Rng.Hits.lift (B := B) (Q := fun _ => True) (raiseUnless_of hkn) trivial).bind hq0.le hq1 (fun _ _ _ => ?_)
      fun _ _ => ?_
    · rw [PyM.bind_assoc', ← mul_one q]
      refine hq.bind zero_le_one le_rfl (fun l hlr hlo => ?_) fun l hlr => ?_
      · rw [List.forall₂_eq_eq_eq] at hlo
        subst hlo
        rw [PyM.pure_bind', ← e]
        exact Rng.Hits.lift (entryNew_congr (by rw [hu.dim, hu'.dim]) hnew).2 rfl
      · obtain ⟨w, hw⟩ := hrest l hlr
        rw [PyM.pure_bind']
        exact (Rng.Hits.lift (Q := fun _ => True) hw trivial).total
    · rw [PyM.bind_assoc']
      exact htot
  · rw [hl] at h
    simp only at h
    obtain ⟨j, hj, h⟩ := Rng.result_bind h
    have hj' := Rng.choice_result hj
    rw [List.getElem?_eq_getElem hj'] at h
    have hnew := Rng.result_lift h
    refine ⟨(entryNew_congr rfl hnew).1, 1 / lists.length, ?_, ?_, fun u' hu' hq => ?_⟩
    · have : (0 : ℝ) < lists.length := by exact_mod_cast (by omega : 0 < lists.length)
      positivity
    · rw [div_le_one (by exact_mod_cast (by omega : 0 < lists.length))]
      exact_mod_cast (by omega : 1 ≤ lists.length)
    · unfold pickQubits
      rw [hl]
      simp only
      rw [← mul_one (1 / (lists.length : ℝ))]
      refine (Rng.Hits.choice (hB' lists hl) hj').bind zero_le_one le_rfl ?_ fun i hi => ?_
      · rintro _ - rfl
        rw [List.getElem?_eq_getElem hj']
        exact Rng.Hits.lift (entryNew_congr (by rw [hu.dim, hu'.dim]) hnew).2 rfl
      · have hi' := Rng.choice_result hi
        rw [List.getElem?_eq_getElem hi']
        simp only at hq
        obtain ⟨g1, g2, g3⟩ := hq _ (List.getElem_mem hi')
        have hcast : ((lists[i]).map Int.toNat).map Int.ofNat = lists[i] := by
          rw [List.map_map]
          conv_rhs => rw [← List.map_id (lists[i])]
          exact List.map_congr_left fun q hq => Int.toNat_of_nonneg (g3 q hq).1
        have e : EntryVal.new u' lists[i] = .ok ⟨u', (lists[i]).map Int.toNat⟩ := by
          conv_lhs => rw [← hcast]
          refine entryNew_nat ?_ ?_ ?_
          · refine List.Nodup.of_map Int.ofNat ?_
            rw [hcast]; exact g1
          · rw [List.length_map, g2, hu'.dim]
          · refine List.ne_nil_of_length_pos ?_
            rw [List.length_map, g2]
            exact hk
        exact (Rng.Hits.lift (Q := fun _ => True) e trivial).total

/-! ## The random gate -/

theorem nearCircuit_single {n k : ℕ} {u u' : Unitary} {qs : List ℕ} (hlen : qs.length = k) {ε : ℝ}
    (h : NearElements (2 ^ k) (ε / 2 ^ n) u u') : NearCircuit n ε [⟨u, qs⟩] [⟨u', qs⟩] := by
  subst hlen
  obtain ⟨c, hc, h⟩ := h
  refine ⟨c, hc, ?_⟩
  have hε : 0 ≤ ε / 2 ^ n := (norm_nonneg _).trans (h 0 (by positivity) 0 (by positivity))
  have h1 : ‖circuit n [⟨u', qs⟩] - c • circuit n [⟨u, qs⟩]‖ ≤ ((2 ^ n : ℕ) : ℝ) * (ε / 2 ^ n) := by
    refine norm_le_entries _ fun r s => ?_
    have e : ∀ u : Unitary, circuit n [⟨u, qs⟩] = embed n qs (u.matrix.toMatrix _) := fun u => by
      simp [circuit, EntryVal.op]
    rw [e, e, Matrix.sub_apply, Matrix.smul_apply, smul_eq_mul]
    unfold embed
    split
    · exact h _ (gather_lt n qs r) _ (gather_lt n qs s)
    · simpa using hε
  refine h1.trans (le_of_eq ?_)
  push_cast
  field_simp

theorem createRandomEntryVal_total {n : ℕ} {prims : List Primitive} {probs : Option (List ℝ)} (hc : ChoiceOk prims probs)
    (hv : ∀ p ∈ prims, p.Valid n) (hB : n ≤ B) (hB1 : prims.length ≤ B)
    (hB' : ∀ p ∈ prims, ∀ lists, p.allowedApplyTo = some lists → lists.length ≤ B) :
    Rng.Total B (createRandomEntryVal 0 (2 ^ n) prims probs) := by
  rw [createRandomEntryVal_eq, show intLog2 (2 ^ n) = n from log2_pow n]
  have hle : (prims.filter usable).length ≤ B := le_trans (List.length_filter_le _ _) hB1
  refine (Rng.Total.choiceOpt hle hc).bind fun i hi => ?_
  obtain ⟨hi', -⟩ := Rng.Hits.choiceOpt hle hc hi
  rw [List.getElem?_eq_getElem hi']
  obtain ⟨h1, h2⟩ := List.mem_filter.mp (List.getElem_mem hi')
  obtain ⟨k, hk1, hk2, hk3, hk4⟩ := hv _ h1
  refine (pickUnitary_total hk3).bind fun u hu => ?_
  have hex := pickUnitary_exact hk3 hu
  obtain ⟨v, r', hr, -⟩ := pickQubits_valid hk1 hk2 hex h2 hk4 (Rng.start (fun _ => ⟨0, by simp⟩, fun _ => 0))
  obtain ⟨-, q, -, -, hq⟩ := pickQubits_hits (B := B) hk1 hk2 hex hB (hB' _ h1) ⟨_, r', hr⟩
  exact (hq u hex hk4).total

/-- The random gate comes as close as desired to every gate that can be drawn. -/
theorem createRandomEntryVal_hits {n : ℕ} {prims : List Primitive} {probs : Option (List ℝ)} (hc : ChoiceOk prims probs)
    (hv : ∀ p ∈ prims, p.Valid n) (hcont : ∀ p ∈ prims, p.Continuous) (hB : n ≤ B) (hB1 : prims.length ≤ B)
    (hB' : ∀ p ∈ prims, ∀ lists, p.allowedApplyTo = some lists → lists.length ≤ B) {v : EntryVal}
    (h : Rng.Result (createRandomEntryVal 0 (2 ^ n) prims probs) v) {ε : ℝ} (hε : 0 < ε) :
    ∃ q : ℝ, 0 < q ∧ q ≤ 1 ∧
      Rng.Hits B (createRandomEntryVal 0 (2 ^ n) prims probs) (fun v' => NearCircuit n ε [v] [v']) q := by
  rw [createRandomEntryVal_eq, show intLog2 (2 ^ n) = n from log2_pow n] at h ⊢
  have hle : (prims.filter usable).length ≤ B := le_trans (List.length_filter_le _ _) hB1
  obtain ⟨i, hi, h⟩ := Rng.result_bind h
  obtain ⟨hi', q1, hq1, hq1', hq1h⟩ := Rng.Hits.choiceOpt hle hc hi
  rw [List.getElem?_eq_getElem hi'] at h
  simp only at h
  obtain ⟨h1, h2⟩ := List.mem_filter.mp (List.getElem_mem hi')
  obtain ⟨k, hk1, hk2, hk3, hk4⟩ := hv _ h1
  obtain ⟨u, hu, h⟩ := Rng.result_bind h
  have hex := pickUnitary_exact hk3 hu
  have hlen : v.applyTo.length = k := by
    obtain ⟨r, r', hr⟩ := h
    obtain ⟨w, r2, hr2, -, hw⟩ := pickQubits_valid hk1 hk2 hex h2 hk4 r
    obtain ⟨h3, h4, -⟩ := pickQubits_ok hr
    have := h3.dim
    rw [EntryVal.getDimension, h4, hex.dim] at this
    exact (Nat.pow_right_injective (le_refl 2) this).symm
  obtain ⟨hveq, q3, hq3, hq3', hq3h⟩ := pickQubits_hits (B := B) hk1 hk2 hex hB (hB' _ h1) h
  obtain ⟨q2, hq2, hq2', hq2h⟩ := pickUnitary_hits (B := B) hk3 (hcont _ h1) hu (ε := ε / 2 ^ n) (by positivity)
  have hq23 : q2 * q3 ≤ 1 := mul_le_one₀ hq2' hq3.le hq3'
  refine ⟨q1 * (q2 * q3), by positivity, mul_le_one₀ hq1' (by positivity) hq23,
    hq1h.bind (by positivity) hq23 ?_ fun j hj => ?_⟩
  · rintro _ - rfl
    rw [List.getElem?_eq_getElem hi']
    refine hq2h.bind hq3.le hq3' (fun u' hu' hnear => ?_) fun u' hu' => ?_
    · refine (hq3h u' (pickUnitary_exact hk3 hu') hk4).mono ?_ le_rfl
      rintro _ - rfl
      rw [hveq]
      exact nearCircuit_single hlen hnear
    · exact (hq3h u' (pickUnitary_exact hk3 hu') hk4).total
  · obtain ⟨hj', -⟩ := Rng.Hits.choiceOpt hle hc hj
    rw [List.getElem?_eq_getElem hj']
    obtain ⟨h1, h2⟩ := List.mem_filter.mp (List.getElem_mem hj')
    obtain ⟨k, hk1, hk2, hk3, hk4⟩ := hv _ h1
    refine (pickUnitary_total hk3).bind fun u hu => ?_
    have hex := pickUnitary_exact hk3 hu
    obtain ⟨v, r', hr, -⟩ := pickQubits_valid hk1 hk2 hex h2 hk4 (Rng.start (fun _ => ⟨0, by simp⟩, fun _ => 0))
    obtain ⟨-, q, -, -, hq⟩ := pickQubits_hits (B := B) hk1 hk2 hex hB (hB' _ h1) ⟨_, r', hr⟩
    exact (hq u hex hk4).total

namespace Metropolis

theorem one_unitary {n : ℕ} {v : EntryVal} (h : v.WF ∧ v.Fits n ∧ v.Exact) :
    circuit n [v] ∈ unitaryGroup (Fin (2 ^ n)) ℂ :=
  (Matrix.mem_specialUnitaryGroup_iff.mp (circuit_mem_su fun e he => by
    rw [List.mem_singleton.mp he]; exact h)).1

theorem result_gate {n : ℕ} {prims : List Primitive} {probs : Option (List ℝ)} (hv : ∀ p ∈ prims, p.Valid n) {v : EntryVal}
    (h : Rng.Result (createRandomEntryVal 0 (2 ^ n) prims probs) v) : v.WF ∧ v.Fits n ∧ v.Exact := by
  obtain ⟨r, r', hr⟩ := h
  exact ⟨(createRandomEntryVal_ok hr).1, createRandomEntryVal_good hv hr⟩

/-- One random gate. -/
theorem one_source {n : ℕ} {prims : List Primitive} {probs : Option (List ℝ)} (hc : ChoiceOk prims probs)
    (hv : ∀ p ∈ prims, p.Valid n) (hcont : ∀ p ∈ prims, p.Continuous) (hB : n ≤ B) (hB1 : prims.length ≤ B)
    (hB' : ∀ p ∈ prims, ∀ lists, p.allowedApplyTo = some lists → lists.length ≤ B) :
    Source B n 1 (one (createRandomEntryVal 0 (2 ^ n) prims probs)) := by
  have key : ∀ l, Rng.Result (one (createRandomEntryVal 0 (2 ^ n) prims probs)) l →
      ∃ v, Rng.Result (createRandomEntryVal 0 (2 ^ n) prims probs) v ∧ l = [v] := by
    intro l hl
    obtain ⟨v, hv, hl⟩ := Rng.result_bind hl
    exact ⟨v, hv, Rng.result_pure hl⟩
  refine ⟨(createRandomEntryVal_total hc hv hB hB1 hB').bind fun _ _ => Rng.Total.pure _, ⟨?_, ?_, ?_⟩, ?_⟩
  · intro l hl
    obtain ⟨v, -, rfl⟩ := key l hl
    rfl
  · intro l hl
    obtain ⟨v, -, rfl⟩ := key l hl
    exact hl
  · intro l hl
    obtain ⟨v, h, rfl⟩ := key l hl
    exact one_unitary (result_gate hv h)
  · intro l hl ε hε
    obtain ⟨v, h, rfl⟩ := key l hl
    obtain ⟨q, h1, h2, h3⟩ := createRandomEntryVal_hits hc hv hcont hB hB1 hB' h hε
    exact ⟨q, h1, h2, h3.map fun v' _ hv' => hv'⟩

end Metropolis

end Stoq
