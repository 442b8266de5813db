import Verif.Proofs.LawReach
import Verif.Props.Law

/-!
# C69: compilation succeeds with probability one in the long run

If some sequence of gates that can be drawn is better than required, the probability that `compile` with a limit of `m`
steps does not find a good enough sequence decreases exponentially with `m`.
-/

namespace Stoq

open MeasureTheory Compiler Matrix

theorem Rng.HasLaw.exists_of_support {B : ℕ} {α : Type} {m : PyM Rng α} {law : PMF α} (h : Rng.HasLaw B m law) {a : α}
    (ha : a ∈ law.support) : ∃ r r', m r = (.ok a, r') := by
  obtain ⟨f, u, h1, -, h3⟩ := h
  have e := (h3 a Set.univ .univ).2
  rw [measure_univ, mul_one] at e
  have hne : {t | f t = a ∧ t.drop (u t) ∈ Set.univ}.Nonempty := by
    rw [Set.nonempty_iff_ne_empty]
    intro h0
    rw [h0, measure_empty] at e
    exact (PMF.mem_support_iff _ _).mp ha e.symm
  obtain ⟨t, ht, -⟩ := hne
  exact ⟨start t, _, by rw [h1, rest_start, ht]⟩

theorem gateLaw_unitary {n : ℕ} {prims : List Primitive} {probs : Option (List ℝ)} {law : PMF EntryVal}
    (hc : ChoiceOk prims probs) (hv : ∀ p ∈ prims, p.Valid n) (hl : IsGateLaw n prims probs law) {v : EntryVal}
    (h : v ∈ law.support) : v.WF ∧ v.Fits n ∧ v.Exact := by
  obtain ⟨B, h1, h2, h3⟩ : ∃ B, n ≤ B ∧ prims.length ≤ B ∧
      ∀ p ∈ prims, ∀ lists, p.allowedApplyTo = some lists → lists.length ≤ B := by
    refine ⟨n + prims.length + (prims.map fun p => (p.allowedApplyTo.getD []).length).sum, by omega, by omega, ?_⟩
    intro p hp lists hl
    have := List.le_sum_of_mem (List.mem_map_of_mem (f := fun p => (p.allowedApplyTo.getD []).length) hp)
    simp only [hl, Option.getD_some] at this
    omega
  obtain ⟨r, r', hr⟩ := (createRandomEntryVal_law hc hv hl h1 h2 h3 0).exists_of_support h
  exact ⟨(generated_from ⟨r, r', hr⟩).1, createRandomEntryVal_good hv hr⟩

theorem one_layerOk {n : ℕ} {law : PMF EntryVal} (h : ∀ v ∈ law.support, v.WF ∧ v.Fits n ∧ v.Exact) :
    Metropolis.LayerOk n 1 (law.map fun v => [v]).support := by
  have key : ∀ l ∈ (law.map fun v => [v]).support, ∃ v ∈ law.support, l = [v] := by
    intro l hl
    obtain ⟨v, hv, rfl⟩ := (PMF.mem_support_map_iff _ _ _).mp hl
    exact ⟨v, hv, rfl⟩
  refine ⟨fun l hl => ?_, fun l hl => ?_, fun l hl => ?_⟩
  · obtain ⟨v, -, rfl⟩ := key l hl; rfl
  · obtain ⟨v, -, rfl⟩ := key l hl; exact hl
  · obtain ⟨v, hv, rfl⟩ := key l hl
    exact (Matrix.mem_specialUnitaryGroup_iff.mp (circuit_mem_su fun e he => by
      rw [List.mem_singleton.mp he]; exact h v hv)).1

theorem flatten_singletons {α : Type} (w : List α) : (w.map fun v => [v]).flatten = w := by
  induction w with
  | nil => rfl
  | cons v w ih => rw [List.map_cons, List.flatten_cons, ih]; rfl

theorem toOuterMeasure_compl {α : Type} (q : PMF α) (A : Set α) : q.toOuterMeasure A = 1 - q.toOuterMeasure Aᶜ := by
  classical
  have h : q.toOuterMeasure A + q.toOuterMeasure Aᶜ = 1 := by
    rw [PMF.toOuterMeasure_apply, PMF.toOuterMeasure_apply, ← ENNReal.tsum_add, ← q.tsum_coe]
    exact tsum_congr fun a => Set.indicator_self_add_compl_apply A q a
  refine (ENNReal.eq_sub_of_add_eq ?_ h)
  exact ne_top_of_le_ne_top ENNReal.one_ne_top (by rw [← h]; exact le_add_self)

/-- The call returns a sequence whose distance from the target is good enough. -/
def Succeeds (n : ℕ) (target : Unitary) (threshold : Option ℝ) (out : Except PyErr CompilerResult × World) : Prop :=
  ∃ gates costs, ReturnsGates gates costs out ∧
    Metropolis.GoodEnough threshold (1 - overlap (target.matrix.toMatrix (2 ^ n)) (circuit n gates))

theorem succeeds_of_law {B n : ℕ} {target : Unitary} {threshold : Option ℝ} {rate cap b : ℝ} {m k : ℕ}
    {proposal : List EntryVal → PMF (List EntryVal)} {M : Rng.Tape → Except PyErr CompilerResult × World} {δ : ℝ}
    (hlaw : ∀ A : Set (List EntryVal × List ℝ), MeasurableSet {t | ∃ a ∈ A, ReturnsGates a.1 a.2 (M t)} ∧
      Rng.tapes B {t | ∃ a ∈ A, ReturnsGates a.1 a.2 (M t)} =
      ((Metropolis.runLaw n (target.matrix.toMatrix (2 ^ n)) threshold rate cap proposal m ⟨[], b⟩).map
        (Metropolis.outcome n (target.matrix.toMatrix (2 ^ n)))).toOuterMeasure A)
    (hfail : Metropolis.failP n (target.matrix.toMatrix (2 ^ n)) threshold rate cap proposal m ⟨[], b⟩ ≤
      ENNReal.ofReal ((1 - δ) ^ k)) :
    1 - ENNReal.ofReal ((1 - δ) ^ k) ≤ Rng.tapes B {t | Succeeds n target threshold (M t)} := by
  have h6 := (hlaw
    {a | Metropolis.GoodEnough threshold (1 - overlap (target.matrix.toMatrix (2 ^ n)) (circuit n a.1))}).2
  have hset : {t | Succeeds n target threshold (M t)} =
      {t | ∃ a ∈ {a : List EntryVal × List ℝ | Metropolis.GoodEnough threshold
        (1 - overlap (target.matrix.toMatrix (2 ^ n)) (circuit n a.1))}, ReturnsGates a.1 a.2 (M t)} := by
    ext t
    constructor
    · rintro ⟨g, cs, h, h'⟩; exact ⟨(g, cs), h', h⟩
    · rintro ⟨⟨g, cs⟩, h', h⟩; exact ⟨g, cs, h, h'⟩
  rw [hset, h6, toOuterMeasure_compl]
  refine tsub_le_tsub_left ?_ 1
  rw [← Metropolis.failP_eq] at hfail
  rw [PMF.toOuterMeasure_map_apply]
  exact hfail

theorem primitiveLaw_unitary {n : ℕ} {p : Primitive} {law : PMF EntryVal} (hv : p.Valid n)
    (hp : p.allowedApplyTo ≠ some []) (hl : p.IsLaw n law) {v : EntryVal} (h : v ∈ law.support) :
    v.WF ∧ v.Fits n ∧ v.Exact := by
  refine gateLaw_unitary (prims := [p]) (probs := none) ?_ ?_ (single_gateLaw hp hl) h
  · unfold ChoiceOk
    rw [filter_usable, show placeable [p] = [p] by simp [placeable, hp]]
    exact Nat.one_pos
  · intro q hq; rw [List.mem_singleton.mp hq]; exact hv

theorem manyLaw_mem {g : PMF EntryVal} {k : ℕ} {l : List EntryVal} (h : l ∈ (Metropolis.manyLaw g k).support) :
    ∀ v ∈ l, 0 < k ∧ v ∈ g.support := by
  induction k generalizing l with
  | zero => rw [(PMF.mem_support_pure_iff _ _).mp h]; simp
  | succ k ih =>
    obtain ⟨v, hv, h⟩ := (PMF.mem_support_bind_iff _ _ _).mp h
    obtain ⟨vs, h1, h⟩ := (PMF.mem_support_bind_iff _ _ _).mp h
    rw [(PMF.mem_support_pure_iff _ _).mp h]
    intro x hx
    rcases List.mem_cons.mp hx with rfl | hx
    · exact ⟨by omega, hv⟩
    · exact ⟨by omega, (ih h1 x hx).2⟩

theorem blockLaw_mem {g : Primitive → PMF EntryVal} {counts : List (Primitive × ℤ)} {l : List EntryVal}
    (h : l ∈ (Metropolis.blockLaw g counts).support) :
    ∀ v ∈ l, ∃ pc ∈ counts, 0 < pc.2 ∧ v ∈ (g pc.1).support := by
  induction counts generalizing l with
  | nil => rw [(PMF.mem_support_pure_iff _ _).mp h]; simp
  | cons pc counts ih =>
    obtain ⟨vs, h1, h⟩ := (PMF.mem_support_bind_iff _ _ _).mp h
    obtain ⟨more, h2, h⟩ := (PMF.mem_support_bind_iff _ _ _).mp h
    rw [(PMF.mem_support_pure_iff _ _).mp h]
    intro x hx
    rcases List.mem_append.mp hx with hx | hx
    · obtain ⟨h3, h4⟩ := manyLaw_mem h1 x hx
      exact ⟨pc, List.mem_cons_self, by simpa using h3, h4⟩
    · obtain ⟨pc', h3, h4⟩ := ih h2 x hx
      exact ⟨pc', List.mem_cons_of_mem _ h3, h4⟩

theorem mem_shuffleLaw {α : Type} {l l' : List α} (h : l' ∈ (shuffleLaw l).support) :
    l'.length = l.length ∧ (∀ x ∈ l', x ∈ l) ∧ l'.reverse ∈ (shuffleLaw l).support := by
  obtain ⟨σ, -, rfl⟩ := (PMF.mem_support_map_iff _ _ _).mp h
  refine ⟨List.length_ofFn, fun x hx => ?_, (PMF.mem_support_map_iff _ _ _).mpr ⟨Fin.revPerm.trans σ, ?_, ?_⟩⟩
  · obtain ⟨i, rfl⟩ := (List.mem_ofFn' _ _).mp hx
    exact List.get_mem _ _
  · rw [PMF.support_uniformOfFintype]; trivial
  · refine List.ext_getElem (by simp) fun i h1 h2 => ?_
    rw [List.getElem_reverse, List.getElem_ofFn, List.getElem_ofFn]
    refine congrArg l.get (congrArg σ (Fin.ext ?_))
    rw [Fin.revPerm_apply, Fin.val_rev]
    simp only [List.length_ofFn] at h2 ⊢
    omega

theorem layer_layerOk {n : ℕ} {law : Primitive → PMF EntryVal} {counts : List (Primitive × ℤ)}
    (hcounts : ∀ pc ∈ counts, 0 ≤ pc.2)
    (h : ∀ pc ∈ counts, 0 < pc.2 → ∀ v ∈ (law pc.1).support, v.WF ∧ v.Fits n ∧ v.Exact) :
    Metropolis.LayerOk n ((counts.map Prod.snd).sum : ℤ).toNat (Metropolis.layerLaw law counts).support := by
  have hsum : ((counts.map fun pc => pc.2.toNat).sum : ℕ) = ((counts.map Prod.snd).sum : ℤ).toNat := by
    have : (((counts.map fun pc => pc.2.toNat).sum : ℕ) : ℤ) = (counts.map Prod.snd).sum := by
      clear h
      induction counts with
      | nil => rfl
      | cons pc counts ih =>
        rw [List.map_cons, List.sum_cons, List.map_cons, List.sum_cons]
        rw [Nat.cast_add, ih fun pc' hpc' => hcounts pc' (List.mem_cons_of_mem _ hpc'),
          Int.toNat_of_nonneg (hcounts pc List.mem_cons_self)]
    omega
  refine ⟨fun l hl => ?_, fun l hl => ?_, fun l hl => ?_⟩ <;>
    obtain ⟨vs, hvs, hl⟩ := (PMF.mem_support_bind_iff _ _ _).mp hl <;>
    obtain ⟨h1, h2, h3⟩ := mem_shuffleLaw hl
  · rw [h1, Metropolis.blockLaw_length hvs, hsum]
  · exact (PMF.mem_support_bind_iff _ _ _).mpr ⟨vs, hvs, h3⟩
  · refine (Matrix.mem_specialUnitaryGroup_iff.mp (circuit_mem_su fun e he => ?_)).1
    obtain ⟨pc, hpc, h0, hv⟩ := blockLaw_mem hvs e (h2 e he)
    exact h pc hpc h0 e hv

/-- C69: if some circuit of gates that can be drawn is strictly better than required, then the probability that
`compile` finds a good enough sequence within `m` steps is at least `1 - (1 - δ) ^ ⌊m / K⌋`, with a positive `δ`.
The numbers `δ` and `K` depend on the gates, the target, the threshold and the append probability, but not on the
history of the session, the annealing value reached or the annealing rate. -/
theorem C69_compile_succeeds {n : ℕ} {prims : List Primitive} {probs : Option (List ℝ)} {p : ℝ}
    (hprims : ∀ q ∈ prims, q.Valid n) (hch : ChoiceOk prims probs) (hp : 0 < p ∧ p ≤ 1) {target : Unitary}
    (ht : target.Exact (2 ^ n)) {law : PMF EntryVal} (hlaw : IsGateLaw n prims probs law) {threshold : Option ℝ}
    {w : List EntryVal} (hw : ∀ v ∈ w, v ∈ law.support)
    (hgood : 1 - overlap (target.matrix.toMatrix (2 ^ n)) (circuit n w) < Metropolis.allowed threshold) :
    ∃ (δ : ℝ) (K : ℕ), 0 < δ ∧ δ ≤ 1 ∧ 0 < K ∧ ∀ {c : Client} {Cs : List Compiler}, Session 0 c Cs →
      (∀ x ∈ c.world.entries, x.toVal.Exact) → ∀ {C : Compiler}, C ∈ Cs → C.dimension = 2 ^ n → C.primitives = prims →
      C.probabilities = probs → C.appendProbability = p → 0 ≤ C.annealingRate → C.Truthy →
      ∀ {B : ℕ}, n ≤ B → prims.length ≤ B →
      (∀ q ∈ prims, ∀ lists, q.allowedApplyTo = some lists → lists.length ≤ B) → ∀ m : ℕ,
        1 - ENNReal.ofReal ((1 - δ) ^ (m / K)) ≤ Rng.tapes B {t | Succeeds n target threshold
          (C.compile 0 target threshold m (c.world.reseed t))} := by
  have hT := (Matrix.mem_specialUnitaryGroup_iff.mp ht.2.2.2).1
  obtain ⟨δ, K, h1, h2, h3, h4⟩ := Metropolis.failP_exponential (cap := ((2 : ℝ) ^ 2 ^ n) ^ 2) hT
    (one_layerOk fun v hv => gateLaw_unitary hch hprims hlaw hv) (by positivity) hp.1 hp.2 (w := w)
    ⟨w.map fun v => [v], (flatten_singletons w).symm, fun l hl => by
      obtain ⟨v, hv, rfl⟩ := List.mem_map.mp hl
      exact (PMF.mem_support_map_iff _ _ _).mpr ⟨v, hw v hv, rfl⟩⟩ hgood
  refine ⟨δ, K, h1, h2, h3, ?_⟩
  intro c Cs hs hex C hC hD hCp hCr hCa hrate hTr B hB hB1 hB2 m
  obtain ⟨b, hb, -, hb0⟩ := hs.ok.2.alive C hC
  have h5 := h4 C.annealingRate hrate m ⟨[], b⟩ ⟨.nil, hb0 hrate⟩
  subst hCp hCr hCa
  exact succeeds_of_law (fun A => C68_compile_law hs hC hex hD hprims hTr hch ⟨hp.1.le, hp.2⟩ ht hb hlaw hB hB1 hB2
    threshold m A) h5

/-- C69 for `compile_layered`, with layers instead of gates. -/
theorem C69_compileLayered_succeeds {n : ℕ} {counts : List (Primitive × ℤ)} {p : ℝ}
    (hprims : ∀ pc ∈ counts, pc.1.Valid n) (hcounts : ∀ pc ∈ counts, 0 ≤ pc.2) (hp : 0 < p ∧ p ≤ 1) {target : Unitary}
    (ht : target.Exact (2 ^ n)) {law : Primitive → PMF EntryVal}
    (hlaw : ∀ pc ∈ counts, 0 < pc.2 → pc.1.allowedApplyTo ≠ some [] ∧ pc.1.IsLaw n (law pc.1)) {threshold : Option ℝ}
    {layers : List (List EntryVal)} (hw : ∀ l ∈ layers, l ∈ (Metropolis.layerLaw law counts).support)
    (hgood : 1 - overlap (target.matrix.toMatrix (2 ^ n)) (circuit n layers.flatten) < Metropolis.allowed threshold) :
    ∃ (δ : ℝ) (K : ℕ), 0 < δ ∧ δ ≤ 1 ∧ 0 < K ∧ ∀ {c : Client} {Cs : List Compiler}, Session 0 c Cs →
      (∀ x ∈ c.world.entries, x.toVal.Exact) → ∀ {C : Compiler}, C ∈ Cs → C.dimension = 2 ^ n →
      C.appendProbability = p → 0 ≤ C.annealingRate → ∀ {B : ℕ}, n ≤ B → 1 ≤ B →
      (∀ pc ∈ counts, ∀ lists, pc.1.allowedApplyTo = some lists → lists.length ≤ B) →
      (counts.map fun pc => pc.2.toNat).sum ≤ B → ∀ m : ℕ,
        1 - ENNReal.ofReal ((1 - δ) ^ (m / K)) ≤ Rng.tapes B {t | Succeeds n target threshold
          (C.compileLayered 0 target counts threshold m (c.world.reseed t))} := by
  have hT := (Matrix.mem_specialUnitaryGroup_iff.mp ht.2.2.2).1
  obtain ⟨δ, K, h1, h2, h3, h4⟩ := Metropolis.failP_exponential (cap := ((2 : ℝ) ^ 2 ^ n) ^ 2) hT
    (layer_layerOk hcounts fun pc hpc h0 v hv => primitiveLaw_unitary (hprims pc hpc) (hlaw pc hpc h0).1
      (hlaw pc hpc h0).2 hv) (by positivity) hp.1 hp.2 ⟨layers, rfl, hw⟩ hgood
  refine ⟨δ, K, h1, h2, h3, ?_⟩
  intro c Cs hs hex C hC hD hCa hrate B hB hB1 hB2 hB3 m
  obtain ⟨b, hb, -, hb0⟩ := hs.ok.2.alive C hC
  have h5 := h4 C.annealingRate hrate m ⟨[], b⟩ ⟨.nil, hb0 hrate⟩
  subst hCa
  exact succeeds_of_law (fun A => C68_compileLayered_law hs hC hex hD hprims ⟨hp.1.le, hp.2⟩ ht hb hlaw hB hB1 hB2 hB3
    threshold m A) h5

/-- C69: hence for every `ε > 0` there is a step limit with which `compile` succeeds with probability at least
`1 - ε`, in every session. -/
theorem C69_enough_steps {δ : ℝ} {K : ℕ} (h0 : 0 < δ) (h1 : δ ≤ 1) (hK : 0 < K) {P : ℕ → ENNReal}
    (hP : ∀ m, 1 - ENNReal.ofReal ((1 - δ) ^ (m / K)) ≤ P m) {ε : ℝ} (hε : 0 < ε) :
    ∃ m0, ∀ m, m0 ≤ m → 1 - ENNReal.ofReal ε ≤ P m := by
  obtain ⟨q, hq⟩ := exists_pow_lt_of_lt_one hε (show 1 - δ < 1 by linarith)
  refine ⟨q * K, fun m hm => le_trans (tsub_le_tsub_left (ENNReal.ofReal_le_ofReal ?_) 1) (hP m)⟩
  refine le_trans (pow_le_pow_of_le_one (by linarith) (by linarith) ?_) hq.le
  exact (Nat.le_div_iff_mul_le hK).mpr hm

theorem indexLaw_support {n : ℕ} {probs : Option (List ℝ)} {ι : PMF (Fin n)} (h : IsIndexLaw probs ι)
    (hv : ∀ p, probs = some p → Rng.ValidP n p) (i : Fin n) :
    i ∈ ι.support ↔ ∀ p, probs = some p → ∀ x, p[i.val]? = some x → 0 < x := by
  rw [PMF.mem_support_iff]
  cases probs with
  | none =>
    refine ⟨fun _ p hp => (Option.some_ne_none p hp.symm).elim, fun _ => ?_⟩
    rw [h i]
    simp
  | some p =>
    obtain ⟨hlen, h⟩ := h
    have hi : i.val < p.length := by omega
    rw [h i]
    constructor
    · intro h0 p' hp' x hx
      cases hp'
      rw [List.getElem?_eq_getElem hi] at hx
      cases hx
      have := ENNReal.ofReal_pos.mp (pos_iff_ne_zero.mpr h0)
      exact (div_pos_iff_of_pos_right (hv p rfl).sum_pos).mp this
    · intro h0
      have := h0 p rfl _ (List.getElem?_eq_getElem hi)
      exact (ENNReal.ofReal_pos.mpr (div_pos this (hv p rfl).sum_pos)).ne'

theorem mem_shuffleLaw_range {n : ℕ} {o : List ℕ} :
    o ∈ (shuffleLaw (List.range n)).support ↔ o.Perm (List.range n) := by
  have hl := Rng.HasLaw.shuffle (B := n) (l := List.range n) (by simp)
  constructor
  · intro h
    obtain ⟨r, r', hr⟩ := hl.exists_of_support h
    obtain ⟨l', r2, h1, h2⟩ := Rng.shuffle_perm (List.range n) r
    rw [hr] at h1
    obtain rfl := Except.ok.inj (Prod.ext_iff.mp h1).1
    exact h2
  · intro h
    obtain ⟨ns, ⟨h1, h2⟩, -⟩ := Rng.shuffle_unique List.nodup_range h
    rw [List.length_range] at h1
    have hb : ∀ x ∈ ns, x.1 ≤ n := fun x hx => by
      have : x.1 ∈ (List.range (n - 1)).map (fun t => n - t) := by rw [← h1.1]; exact List.mem_map_of_mem hx
      obtain ⟨t, -, e⟩ := List.mem_map.mp this
      omega
    have h3 := hl.of_yields h1.2 hb h2
    rw [PMF.mem_support_iff]
    refine (lt_of_lt_of_le ?_ h3).ne'
    refine pos_iff_ne_zero.mpr (List.prod_ne_zero ?_)
    intro h0
    obtain ⟨x, -, hx⟩ := List.mem_map.mp h0
    exact ENNReal.inv_ne_zero.mpr (ENNReal.natCast_ne_top _) hx

/-- C69: the gates that can be drawn are the instances of the primitives with positive weight: on an allowed list of
qubits, or on any distinct qubits. -/
theorem C69_possible_gates {n : ℕ} {prims : List Primitive} {probs : Option (List ℝ)} {law : PMF EntryVal}
    (hc : ChoiceOk prims probs) (hv : ∀ p ∈ prims, p.Valid n) (hl : IsGateLaw n prims probs law) (v : EntryVal) :
    v ∈ law.support ↔ ∃ (i : ℕ) (q : Primitive), (placeable prims)[i]? = some q ∧
      (∀ p, probs = some p → ∀ x, p[i]? = some x → 0 < x) ∧ q.unitary = .inl v.unitary ∧
      match q.allowedApplyTo with
      | some lists => v.applyTo.map Int.ofNat ∈ lists
      | none => v.applyTo.Nodup ∧ (∀ x ∈ v.applyTo, x < n) ∧ 2 ^ v.applyTo.length = v.unitary.getDimension := by
  obtain ⟨ι, g, hι, hg, rfl⟩ := hl
  have hcv : ∀ p, probs = some p → Rng.ValidP (placeable prims).length p := by
    rintro p rfl
    rw [← filter_usable]
    exact hc
  rw [PMF.mem_support_bind_iff]
  constructor
  · rintro ⟨i, hi, hvi⟩
    refine ⟨i, (placeable prims)[i.val], List.getElem?_eq_getElem i.2, (indexLaw_support hι hcv i).mp hi, ?_⟩
    obtain ⟨hp1, hp2⟩ := List.mem_filter.mp (List.getElem_mem i.2)
    obtain ⟨k, hk1, hk2, hk3, hk4⟩ := hv _ hp1
    obtain ⟨u, hu, hlaw⟩ := hg i
    simp only [List.get_eq_getElem] at hu hlaw
    generalize (placeable prims)[i.val] = q at *
    rw [hu] at hk3
    have hdim : u.getDimension = 2 ^ k := hk3.rows
    rcases ha : q.allowedApplyTo with _ | lists
    · rw [ha] at hlaw
      obtain ⟨k', hk', hlaw⟩ := hlaw
      rw [hlaw] at hvi
      obtain ⟨o, ho, rfl⟩ := (PMF.mem_support_map_iff _ _ _).mp hvi
      have hkk : k' = k := Nat.pow_right_injective (le_refl 2) (hk'.symm.trans hdim)
      have hperm := mem_shuffleLaw_range.mp ho
      refine ⟨hu, (hperm.nodup_iff.mpr List.nodup_range).sublist (List.take_sublist _ _), fun x hx => ?_, ?_⟩
      · exact List.mem_range.mp (hperm.subset (List.mem_of_mem_take hx))
      · simp only [List.length_take, hperm.length_eq, List.length_range, hkk, min_eq_left hk2, hdim]
    · rw [ha] at hlaw hk4
      obtain ⟨κ, hκ, hlaw⟩ := hlaw
      rw [hlaw] at hvi
      obtain ⟨j, hj, rfl⟩ := (PMF.mem_support_map_iff _ _ _).mp hvi
      refine ⟨hu, ?_⟩
      obtain ⟨-, -, h3⟩ := hk4 _ (List.get_mem lists j)
      have hcast : ((lists.get j).map Int.toNat).map Int.ofNat = lists.get j := by
        rw [List.map_map]
        conv_rhs => rw [← List.map_id (lists.get j)]
        exact List.map_congr_left fun x hx => Int.toNat_of_nonneg (h3 x hx).1
      exact (congrArg (· ∈ lists) hcast).mpr (List.get_mem lists j)
  · rintro ⟨i, q, hq, hpos, hu, hm⟩
    obtain ⟨hi, rfl⟩ := List.getElem?_eq_some_iff.mp hq
    refine ⟨⟨i, hi⟩, (indexLaw_support hι hcv ⟨i, hi⟩).mpr hpos, ?_⟩
    obtain ⟨u, hu', hlaw⟩ := hg ⟨i, hi⟩
    simp only [List.get_eq_getElem] at hu' hlaw
    generalize (placeable prims)[i] = q at *
    rw [hu] at hu'
    obtain rfl := Sum.inl.inj hu'
    rcases ha : q.allowedApplyTo with _ | lists
    · rw [ha] at hlaw hm
      obtain ⟨k, hk, hlaw⟩ := hlaw
      obtain ⟨h1, h2, h3⟩ := hm
      have hlen : v.applyTo.length = k := Nat.pow_right_injective (le_refl 2) (h3.trans hk)
      rw [hlaw]
      refine (PMF.mem_support_map_iff _ _ _).mpr ⟨v.applyTo ++ (List.range n).diff v.applyTo, ?_, ?_⟩
      · refine mem_shuffleLaw_range.mpr (List.subperm_append_diff_self_of_count_le fun x hx => ?_)
        rw [List.count_eq_one_of_mem h1 hx]
        exact List.one_le_count_iff.mpr (List.mem_range.mpr (h2 x hx))
      · rw [← hlen, List.take_left]
    · rw [ha] at hlaw hm
      obtain ⟨κ, hκ, hlaw⟩ := hlaw
      rw [hlaw]
      obtain ⟨j, hj⟩ := List.mem_iff_get.mp hm
      refine (PMF.mem_support_map_iff _ _ _).mpr ⟨j, (indexLaw_support hκ (by simp) j).mpr (by simp), ?_⟩
      rw [show lists[j.val] = _ from hj, List.map_map]
      have : v.applyTo.map (Int.toNat ∘ Int.ofNat) = v.applyTo := List.map_id'' (fun _ => rfl) _
      rw [this]

/-! ## Example -/

/-- C69: for the target of the only gate, and a threshold of 0.999, a success is as certain as desired after enough
steps, in every session. -/
example (rng : Rng) {ε : ℝ} (hε : 0 < ε) : ∃ m0 : ℕ, ∀ m : ℕ, m0 ≤ m → 1 - ENNReal.ofReal ε ≤
    Rng.tapes 1 {t | Succeeds 1 (tinyPhase (Real.pi / 2)) (some (999 / 1000)) ((zCompiler (1 / 2) 1 0).compile 0
      (tinyPhase (Real.pi / 2)) (some (999 / 1000)) m ((zClient rng).world.reseed t))} := by
  obtain ⟨δ, K, h1, h2, h3, h4⟩ := C69_compile_succeeds (n := 1) (probs := none) (p := 1 / 2) zPrims_valid zPrims_choice
    (by norm_num) (tinyPhase_exact (Real.pi / 2)) z_gateLaw (threshold := some (999 / 1000)) (w := [zGate])
    (by simp) (by
      have h : circuit 1 [zGate] = (tinyPhase (Real.pi / 2)).matrix.toMatrix (2 ^ 1) := by
        unfold circuit circuit EntryVal.op
        rw [one_mul]
        ext i j
        fin_cases i <;> fin_cases j <;> simp [embed, AgreeOff, gather, qubit, zGate]
      rw [h, overlap_self (d := 2 ^ 1) (by norm_num)
        (Matrix.mem_specialUnitaryGroup_iff.mp (tinyPhase_exact (Real.pi / 2)).2.2.2).1]
      norm_num [Metropolis.allowed])
  refine C69_enough_steps h1 h2 h3 (fun m => ?_) hε
  refine h4 (zSession 0 rng (1 / 2) 1) (zClient_entries rng) (C := zCompiler (1 / 2) 1 0) (by simp) rfl rfl rfl rfl
    (by norm_num [zCompiler]) (zCompiler_truthy _ _ _) le_rfl (by simp) ?_ m
  intro p hp lists hl
  obtain rfl := List.mem_singleton.mp hp
  obtain rfl := Option.some.inj hl
  simp

end Stoq
