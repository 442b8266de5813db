import Verif.Proofs.LawMetropolis
import Verif.Proofs.Compile

/-! # The distribution of random gates -/

namespace Stoq

open MeasureTheory ProbabilityTheory

/-- A distribution that is nowhere smaller than another one is equal to it. -/
theorem PMF.eq_of_le {α : Type} {p q : PMF α} (h : ∀ a, q a ≤ p a) : p = q := by
  ext a
  by_contra hne
  have hlt : q a < p a := lt_of_le_of_ne (h a) (Ne.symm hne)
  have := ENNReal.tsum_lt_tsum (by rw [q.tsum_coe]; exact ENNReal.one_ne_top) h hlt
  rw [p.tsum_coe, q.tsum_coe] at this
  exact lt_irrefl _ this

namespace Rng

variable {B : ℕ} {α β : Type}

/-- The probability of given outcomes of integer draws. -/
theorem tapes_draws : ∀ {ns : List (ℕ × ℕ)}, InRange ns → (∀ x ∈ ns, x.1 ≤ B) →
    MeasurableSet {t : Tape | ∀ i (h : i < ns.length), t.2 i % ns[i].1 = ns[i].2} ∧
    tapes B {t : Tape | ∀ i (h : i < ns.length), t.2 i % ns[i].1 = ns[i].2} =
      (ns.map fun x => (x.1 : ENNReal)⁻¹).prod
  | [], _, _ => by simp
  | x :: ns, hr, hB => by
    obtain ⟨h1, h2⟩ := inRange_cons.mp hr
    obtain ⟨ih1, ih2⟩ := tapes_draws h2 fun y hy => hB y (List.mem_cons_of_mem _ hy)
    have hset : {t : Tape | ∀ i (h : i < (x :: ns).length), t.2 i % (x :: ns)[i].1 = (x :: ns)[i].2} =
        (fun t : Tape => (t.2 0, t.drop (0, 1))) ⁻¹'
          ({y | y % x.1 = x.2} ×ˢ {t : Tape | ∀ i (h : i < ns.length), t.2 i % ns[i].1 = ns[i].2}) := by
      ext t
      simp only [Set.mem_ofPred_eq, Set.mem_preimage, Set.mem_prod, Tape.drop]
      constructor
      · intro h
        refine ⟨h 0 (by simp), fun i hi => ?_⟩
        have := h (i + 1) (by simpa using hi)
        rw [Nat.add_comm 1 i]
        simpa using this
      · rintro ⟨h3, h4⟩ i hi
        rcases i with _ | i
        · exact h3
        · have := h4 i (by simpa using hi)
          rw [Nat.add_comm 1 i] at this
          simpa using this
    have hm : MeasurableSet {y : ℕ | y % x.1 = x.2} := MeasurableSet.of_discrete
    rw [hset]
    refine ⟨(measurePreserving_nat (B := B)).measurable (hm.prod ih1), ?_⟩
    rw [measurePreserving_nat.measure_preimage (hm.prod ih1).nullMeasurableSet, Measure.prod_prod, ih2,
      HasLaw.uniformNat_mod (by omega) (hB x (by simp)) h1, List.map_cons, List.prod_cons]

/-- A result that some draws lead to has at least the probability of these draws. -/
theorem HasLaw.of_yields {m : PyM Rng α} {law : PMF α} (h : HasLaw B m law) {ns : List (ℕ × ℕ)} (hr : InRange ns)
    (hB : ∀ x ∈ ns, x.1 ≤ B) {a : α} (hy : Yields m [] ns a) : (ns.map fun x => (x.1 : ENNReal)⁻¹).prod ≤ law a := by
  obtain ⟨f, u, h1, -, h3⟩ := h
  have e := (h3 a Set.univ .univ).2
  rw [measure_univ, mul_one] at e
  rw [← e, ← (tapes_draws hr hB).2]
  refine measure_mono fun t ht => ?_
  have hd : (start t).Delivers [] ns := ⟨by simp, fun i hi => by
    have := ht i hi
    simpa [start] using this⟩
  have h2 := hy _ hd
  rw [h1, rest_start] at h2
  exact ⟨Except.ok.inj (Prod.ext_iff.mp h2).1, trivial⟩

namespace HasLaw

theorem choice {n : ℕ} [NeZero n] (hB : n ≤ B) :
    HasLaw B (Rng.choice n) ((PMF.uniformOfFintype (Fin n)).map Fin.val) := by
  unfold Rng.choice
  exact bind_lift (raiseUnless_of (Nat.pos_of_neZero n)) (randBelow hB)

theorem isIndexLaw_uniform {n : ℕ} [NeZero n] : IsIndexLaw none (PMF.uniformOfFintype (Fin n)) := fun i => by
  rw [PMF.uniformOfFintype_apply, Fintype.card_fin]

theorem choiceOpt_none {n : ℕ} (hn : 0 < n) (hB : n ≤ B) {ι : PMF (Fin n)} (hι : IsIndexLaw none ι) :
    HasLaw B (Rng.choiceOpt n none) (ι.map Fin.val) := by
  have : NeZero n := ⟨hn.ne'⟩
  have : ι = PMF.uniformOfFintype (Fin n) := by
    ext i
    rw [hι i, isIndexLaw_uniform i]
  rw [this]
  exact choice hB

theorem map_val_apply {n : ℕ} (ι : PMF (Fin n)) (a : ℕ) : (ι.map Fin.val) a = if h : a < n then ι ⟨a, h⟩ else 0 := by
  rw [PMF.map_apply]
  split
  · next h =>
    rw [tsum_eq_single ⟨a, h⟩, if_pos rfl]
    intro b hb
    rw [if_neg fun e => hb (Fin.ext e.symm)]
  · next h =>
    refine ENNReal.tsum_eq_zero.mpr fun b => if_neg fun e => h (by rw [e]; exact b.2)

theorem choiceOpt_some {n : ℕ} {p : List ℝ} (hp : ValidP n p) {ι : PMF (Fin n)} (hι : IsIndexLaw (some p) ι) :
    HasLaw B (Rng.choiceOpt n (some p)) (ι.map Fin.val) := by
  obtain ⟨hlen, hι⟩ := hι
  have e : Rng.choiceOpt n (some p) = fun r =>
      (.ok (searchsortedRight ((cumsum p).map (· / p.sum)) (r.unif r.upos)), r.skip 1 0) :=
    funext fun r => choiceP_eq hp r
  have hset : ∀ a, {u : Set.Ico (0 : ℝ) 1 | searchsortedRight ((cumsum p).map (· / p.sum)) u = a} =
      {u : Set.Ico (0 : ℝ) 1 | ChosenBy p u a} := fun a => Set.ext fun u => (chosenBy_iff hp u).symm
  rw [e]
  refine sample (g := fun u : Set.Ico (0 : ℝ) 1 => searchsortedRight ((cumsum p).map (· / p.sum)) u)
    (fun u => ?_) (fun a => ?_) fun a => ?_
  · obtain ⟨h1, h2, h3⟩ := search_spec hp u rfl
    rw [PMF.mem_support_iff, map_val_apply, dif_pos h1, hι]
    rw [List.take_succ_eq_append_getElem (by rw [hlen]; exact h1), List.sum_append, List.sum_singleton] at h3
    exact (ENNReal.ofReal_pos.mpr (div_pos (by linarith) hp.sum_pos)).ne'
  · rw [hset]
    by_cases ha : a < p.length
    · exact (uniformUnit_chosenBy hp ha).1
    · convert MeasurableSet.empty using 1
      exact Set.eq_empty_of_forall_notMem fun u hu => ha hu.1
  · rw [hset, map_val_apply]
    split
    · next h =>
      rw [hι, ← (uniformUnit_chosenBy hp (i := a) (by rw [hlen]; exact h)).2, ofReal_measureReal]
    · next h =>
      convert measure_empty using 2
      · exact Set.eq_empty_of_forall_notMem fun u hu => h (by rw [← hlen]; exact hu.1)
      · infer_instance

theorem shuffleFrom_exists : ∀ (i : ℕ) (l : List α), i + 1 ≤ B → ∃ law, HasLaw B (Rng.shuffleFrom i l) law
  | 0, l, _ => ⟨_, HasLaw.pure l⟩
  | i + 1, l, hB => by
    unfold Rng.shuffleFrom
    have h : ∀ j, ∃ law, HasLaw B (Rng.shuffleFrom i (Rng.swapAt l (i + 1) j)) law := fun j =>
      shuffleFrom_exists i _ (by omega)
    choose law hlaw using h
    exact ⟨_, (randBelow (n := i + 2) (by omega)).bind fun j _ => hlaw j⟩

theorem bounds_prod (i : ℕ) : ((bounds i).map fun b => ((b : ℕ) : ENNReal)⁻¹).prod = ((i + 1).factorial : ENNReal)⁻¹ := by
  induction i with
  | zero => simp [bounds]
  | succ i ih =>
    rw [bounds, List.map_cons, List.prod_cons, ih, ← ENNReal.mul_inv (by simp) (by simp), Nat.factorial_succ (i + 1)]
    push_cast
    rw [add_assoc, one_add_one_eq_two]

theorem shuffle_finRange {n : ℕ} (hB : n ≤ B) :
    HasLaw B (Rng.shuffle (List.finRange n))
      ((PMF.uniformOfFintype (Equiv.Perm (Fin n))).map fun σ : Equiv.Perm (Fin n) => List.ofFn (σ : Fin n → Fin n)) := by
  rcases Nat.eq_zero_or_pos n with rfl | hn
  · have h1 : Rng.shuffle (List.finRange 0) = Pure.pure [] := rfl
    rw [h1]
    refine (pure (B := B) _).congr rfl ?_
    have : (fun σ : Equiv.Perm (Fin 0) => List.ofFn (σ : Fin 0 → Fin 0)) = Function.const _ [] := by
      funext σ; simp
    rw [this, PMF.map_const]
  obtain ⟨law, hlaw⟩ := shuffleFrom_exists (B := B) (n - 1) (List.finRange n) (by omega)
  have hlaw' : HasLaw B (Rng.shuffle (List.finRange n)) law := by
    unfold Rng.shuffle
    rwa [List.length_finRange]
  refine hlaw'.congr rfl (PMF.eq_of_le fun a => ?_).symm
  rw [PMF.map_apply]
  by_cases ha : ∃ σ : Equiv.Perm (Fin n), a = List.ofFn (σ : Fin n → Fin n)
  · obtain ⟨σ, rfl⟩ := ha
    rw [tsum_eq_single σ, if_pos rfl, PMF.uniformOfFintype_apply, Fintype.card_perm, Fintype.card_fin]
    · have hperm : (List.ofFn (σ : Fin n → Fin n)).Perm (List.finRange n) := by
        rw [List.ofFn_eq_map]
        exact Equiv.Perm.map_finRange_perm σ
      obtain ⟨ns, ⟨h1, h2⟩, -⟩ := shuffle_unique (List.nodup_finRange n) hperm
      rw [List.length_finRange] at h1
      obtain ⟨h3, h4⟩ := shuffleDraws_iff.mp h1
      have hb : ∀ x ∈ ns, x.1 ≤ B := fun x hx => by
        have : x.1 ∈ bounds (n - 1) := by rw [← h3]; exact List.mem_map_of_mem hx
        rw [bounds_eq] at this
        obtain ⟨t, ht, e⟩ := List.mem_map.mp this
        omega
      have := hlaw'.of_yields h4 hb h2
      rw [show (ns.map fun x => (x.1 : ENNReal)⁻¹) = (ns.map Prod.fst).map fun b => ((b : ℕ) : ENNReal)⁻¹ by
        rw [List.map_map]; rfl, h3, bounds_prod, show n - 1 + 1 = n by omega] at this
      exact this
    · intro τ hτ
      refine if_neg fun e => hτ ?_
      exact (DFunLike.coe_injective (List.ofFn_injective e)).symm
  · exact (ENNReal.tsum_eq_zero.mpr fun σ => if_neg fun e => ha ⟨σ, e⟩).trans_le zero_le

theorem swapAt_map (f : α → β) (l : List α) (i j : ℕ) : swapAt (l.map f) i j = (swapAt l i j).map f := by
  unfold swapAt
  rw [List.getElem?_map, List.getElem?_map]
  cases l[i]? <;> cases l[j]? <;> simp [List.map_set]

theorem shuffleFrom_map (f : α → β) (i : ℕ) (l : List α) :
    Rng.shuffleFrom i (l.map f) = Rng.shuffleFrom i l >>= fun x => Pure.pure (x.map f) := by
  induction i generalizing l with
  | zero => simp only [Rng.shuffleFrom, PyM.pure_bind']
  | succ i ih =>
    simp only [Rng.shuffleFrom, swapAt_map, ih, PyM.bind_assoc']

theorem shuffle {l : List α} (hB : l.length ≤ B) : HasLaw B (Rng.shuffle l) (shuffleLaw l) := by
  have h := (shuffle_finRange (B := B) hB).map fun x => x.map l.get
  refine h.congr ?_ ?_
  · unfold Rng.shuffle
    rw [← shuffleFrom_map, List.length_finRange]
    congr 1
    rw [← List.ofFn_eq_map, List.ofFn_get]
  · unfold shuffleLaw
    rw [PMF.map_comp]
    congr 1
    funext σ
    simp [List.map_ofFn, Function.comp_def]

end HasLaw

end Rng

open Compiler

variable {B : ℕ}

theorem pickQubits_law {n : ℕ} {p : Primitive} (hv : p.Valid n) (hp : p.allowedApplyTo ≠ some []) {law : PMF EntryVal}
    (hl : p.IsLaw n law) (hB : n ≤ B) (hB' : ∀ lists, p.allowedApplyTo = some lists → lists.length ≤ B) (τ : Arith) :
    Rng.HasLaw B (pickUnitary τ p >>= fun u => pickQubits n p u) law := by
  obtain ⟨u, hu, hl⟩ := hl
  obtain ⟨k, hk1, hk2, hk3, hk4⟩ := hv
  rw [hu] at hk3
  have hu' : pickUnitary τ p = Pure.pure u := by unfold pickUnitary; rw [hu]
  rw [hu', PyM.pure_bind']
  have hdim : u.getDimension = 2 ^ k := hk3.rows
  unfold pickQubits
  rcases ha : p.allowedApplyTo with _ | lists
  · rw [ha] at hl
    obtain ⟨k', hk', rfl⟩ := hl
    have hkk : k' = k := Nat.pow_right_injective (le_refl 2) (hk'.symm.trans hdim)
    subst hkk
    simp only
    rw [hdim, show intLog2 (2 ^ k') = k' from log2_pow k']
    unfold Rng.choiceNoReplace
    rw [PyM.bind_assoc']
    refine Rng.HasLaw.bind_lift (raiseUnless_of hk2) ?_
    rw [PyM.bind_assoc']
    refine (Rng.HasLaw.shuffle (B := B) (l := List.range n) (by rw [List.length_range]; exact hB)).bind fun order ho => ?_
    obtain ⟨σ, -, rfl⟩ := (PMF.mem_support_map_iff _ _ _).mp ho
    rw [PyM.pure_bind']
    refine Rng.HasLaw.lift (entryNew_nat ?_ ?_ ?_)
    · refine List.Nodup.sublist (List.take_sublist _ _) (List.nodup_ofFn.mpr ?_)
      exact (List.nodup_iff_injective_get.mp List.nodup_range).comp σ.injective
    · rw [List.length_take, List.length_ofFn, List.length_range, min_eq_left hk2, hdim]
    · refine List.ne_nil_of_length_pos ?_
      rw [List.length_take, List.length_ofFn, List.length_range, min_eq_left hk2]
      exact hk1
  · rw [ha] at hl hk4
    obtain ⟨ι, hι, rfl⟩ := hl
    have hne : 0 < lists.length := List.length_pos_iff.mpr fun e => hp (by rw [ha, e])
    simp only
    refine ((Rng.HasLaw.choiceOpt_none (B := B) hne (hB' _ ha) hι).bind (law' := fun j =>
      PMF.pure (if _ : j < lists.length then ⟨u, (lists[j]).map Int.toNat⟩ else ⟨u, []⟩ : EntryVal)) fun j hj => ?_).congr rfl ?_
    · obtain ⟨j, -, rfl⟩ := (PMF.mem_support_map_iff _ _ _).mp hj
      rw [List.getElem?_eq_getElem j.2, dif_pos j.2]
      obtain ⟨h1, h2, h3⟩ := hk4 _ (List.getElem_mem j.2)
      have hcast : ((lists[j.val]).map Int.toNat).map Int.ofNat = lists[j.val] := by
        rw [List.map_map]
        conv_rhs => rw [← List.map_id (lists[j.val])]
        exact List.map_congr_left fun q hq => Int.toNat_of_nonneg (h3 q hq).1
      refine Rng.HasLaw.lift ?_
      rw [← entryNew_nat, hcast]
      · refine List.Nodup.of_map Int.ofNat ?_
        rw [hcast]; exact h1
      · rw [List.length_map, h2, hdim]
      · refine List.ne_nil_of_length_pos ?_
        rw [List.length_map, h2]
        exact hk1
    · rw [PMF.bind_map]
      refine congrArg _ (funext fun j => ?_)
      simp [j.2]

/-- The distribution of `create_random_sequence_entry`, when no primitive has parameters. -/
theorem createRandomEntryVal_law {n : ℕ} {prims : List Primitive} {probs : Option (List ℝ)} {law : PMF EntryVal}
    (hc : ChoiceOk prims probs) (hv : ∀ p ∈ prims, p.Valid n) (hl : IsGateLaw n prims probs law) (hB : n ≤ B)
    (hB1 : prims.length ≤ B) (hB' : ∀ p ∈ prims, ∀ lists, p.allowedApplyTo = some lists → lists.length ≤ B) (τ : Arith) :
    Rng.HasLaw B (createRandomEntryVal τ (2 ^ n) prims probs) law := by
  obtain ⟨ι, g, hι, hg, rfl⟩ := hl
  rw [createRandomEntryVal_eq, filter_usable, show intLog2 (2 ^ n) = n from log2_pow n]
  have hle : (placeable prims).length ≤ B := le_trans (List.length_filter_le _ _) hB1
  have hch : Rng.HasLaw B (Rng.choiceOpt (placeable prims).length probs) (ι.map Fin.val) := by
    unfold ChoiceOk at hc
    rw [filter_usable] at hc
    cases probs with
    | none => exact Rng.HasLaw.choiceOpt_none hc hle hι
    | some p => exact Rng.HasLaw.choiceOpt_some hc hι
  obtain ⟨i0, -⟩ := ι.support_nonempty
  refine (hch.bind (law' := fun i => if h : i < (placeable prims).length then g ⟨i, h⟩ else g i0)
    fun i hi => ?_).congr rfl ?_
  · obtain ⟨i, -, rfl⟩ := (PMF.mem_support_map_iff _ _ _).mp hi
    rw [List.getElem?_eq_getElem i.2, dif_pos i.2]
    obtain ⟨h1, h2⟩ := List.mem_filter.mp (List.getElem_mem i.2)
    exact pickQubits_law (hv _ h1) (by simpa using h2) (hg i) hB (hB' _ h1) τ
  · rw [PMF.bind_map]
    refine congrArg _ (funext fun i => ?_)
    simp [i.2]

namespace Metropolis

theorem one_law {gen : PyM Rng EntryVal} {g : PMF EntryVal} (h : Rng.HasLaw B gen g) :
    Rng.HasLaw B (one gen) (g.map fun v => [v]) := h.map _

theorem many_law {gen : PyM Rng EntryVal} {g : PMF EntryVal} (h : Rng.HasLaw B gen g) (k : ℕ) :
    Rng.HasLaw B (many gen k) (manyLaw g k) := by
  induction k with
  | zero => exact Rng.HasLaw.pure _
  | succ k ih => exact h.bind fun v _ => ih.bind fun vs _ => Rng.HasLaw.pure _

theorem manyLaw_length {g : PMF EntryVal} {k : ℕ} {l : List EntryVal} (h : l ∈ (manyLaw g k).support) :
    l.length = k := by
  induction k generalizing l with
  | zero => rw [(PMF.mem_support_pure_iff _ _).mp h]; rfl
  | succ k ih =>
    obtain ⟨v, -, h⟩ := (PMF.mem_support_bind_iff _ _ _).mp h
    obtain ⟨vs, h1, h⟩ := (PMF.mem_support_bind_iff _ _ _).mp h
    rw [(PMF.mem_support_pure_iff _ _).mp h, List.length_cons, ih h1]

theorem blockLaw_length {g : Primitive → PMF EntryVal} {counts : List (Primitive × ℤ)} {l : List EntryVal}
    (h : l ∈ (blockLaw g counts).support) : l.length = (counts.map fun pc => pc.2.toNat).sum := by
  induction counts generalizing l with
  | nil => rw [(PMF.mem_support_pure_iff _ _).mp h]; rfl
  | cons pc counts ih =>
    obtain ⟨vs, h1, h⟩ := (PMF.mem_support_bind_iff _ _ _).mp h
    obtain ⟨more, h2, h⟩ := (PMF.mem_support_bind_iff _ _ _).mp h
    rw [(PMF.mem_support_pure_iff _ _).mp h, List.length_append, manyLaw_length h1, ih h2, List.map_cons, List.sum_cons]

theorem block_law {gen : Primitive → PyM Rng EntryVal} {g : Primitive → PMF EntryVal} {counts : List (Primitive × ℤ)}
    (h : ∀ pc ∈ counts, 0 < pc.2 → Rng.HasLaw B (gen pc.1) (g pc.1)) :
    Rng.HasLaw B (block gen counts) (blockLaw g counts) := by
  induction counts with
  | nil => exact Rng.HasLaw.pure _
  | cons pc counts ih =>
    obtain ⟨p, count⟩ := pc
    have hm : Rng.HasLaw B (many (gen p) count.toNat) (manyLaw (g p) count.toNat) := by
      rcases Nat.eq_zero_or_pos count.toNat with h0 | h0
      · rw [h0]; exact Rng.HasLaw.pure _
      · exact many_law (h _ List.mem_cons_self (by simpa using h0)) _
    exact hm.bind fun vs _ => (ih fun pc hpc => h pc (List.mem_cons_of_mem _ hpc)).bind fun more _ => Rng.HasLaw.pure _

theorem layer_law {gen : Primitive → PyM Rng EntryVal} {g : Primitive → PMF EntryVal} {counts : List (Primitive × ℤ)}
    (h : ∀ pc ∈ counts, 0 < pc.2 → Rng.HasLaw B (gen pc.1) (g pc.1))
    (hB : (counts.map fun pc => pc.2.toNat).sum ≤ B) : Rng.HasLaw B (layer gen counts) (layerLaw g counts) :=
  (block_law h).bind fun vs hvs => Rng.HasLaw.shuffle (by rw [blockLaw_length hvs]; exact hB)

end Metropolis

end Stoq
