import Verif.Proofs.DrawsMore
import Verif.Props.SequenceExamples

/-!
# C53, C54: random gates and shuffles as functions of the draws; all of them are equally likely
-/

namespace Stoq

open World Compiler

/-! ## C53: random gates -/

/-- C53: without probabilities, one draw selects one of the primitives that can be placed, all with the same weight;
then each parameter takes the value at a uniformly drawn fraction of its range, and the qubits are drawn. -/
theorem C53_gate_unweighted {τ : Arith} {D : ℕ} {prims : List Primitive} {us : List (Set.Ico (0 : ℝ) 1)}
    {ns : List (ℕ × ℕ)} {i : ℕ} {p : Primitive} {u : Unitary} {qs : List ℕ} (hi : (placeable prims)[i]? = some p)
    (hu : p.DrawsUnitary τ us u) (hq : p.DrawsQubits (intLog2 D) ns qs) (h1 : qs.Nodup)
    (h2 : 2 ^ qs.length = u.getDimension) (h3 : qs ≠ []) :
    Rng.Yields (createRandomEntryVal τ D prims none) us (((placeable prims).length, i) :: ns) ⟨u, qs⟩ :=
  createRandomEntryVal_yields (us0 := []) (ns0 := [_])
    (Rng.Yields.choice (List.length_pos_of_mem (List.mem_of_getElem? hi)) i) hi hu hq h1 h2 h3

/-- C53: with probabilities, one uniform number selects the primitive whose interval contains it. -/
theorem C53_gate_weighted {τ : Arith} {D : ℕ} {prims : List Primitive} {probs : List ℝ}
    (hp : Rng.ValidP (placeable prims).length probs) {x : Set.Ico (0 : ℝ) 1} {us : List (Set.Ico (0 : ℝ) 1)}
    {ns : List (ℕ × ℕ)} {i : ℕ} (hx : ChosenBy probs x i) {p : Primitive} {u : Unitary} {qs : List ℕ}
    (hi : (placeable prims)[i]? = some p) (hu : p.DrawsUnitary τ us u) (hq : p.DrawsQubits (intLog2 D) ns qs)
    (h1 : qs.Nodup) (h2 : 2 ^ qs.length = u.getDimension) (h3 : qs ≠ []) :
    Rng.Yields (createRandomEntryVal τ D prims (some probs)) (x :: us) ns ⟨u, qs⟩ :=
  createRandomEntryVal_yields (us0 := [x]) (ns0 := []) (Rng.Yields.choiceP hp hx) hi hu hq h1 h2 h3

/-- C53: `create_random_sequence_entry` makes one new entry object holding that gate. -/
theorem C53_new_entry {τ : Arith} {D : ℕ} {prims : List Primitive} {probs : Option (List ℝ)}
    {us : List (Set.Ico (0 : ℝ) 1)} {ns : List (ℕ × ℕ)} {v : EntryVal}
    (h : Rng.Yields (createRandomEntryVal τ D prims probs) us ns v) {w : World} (hw : w.rng.Delivers us ns) :
    createRandomSequenceEntry τ D prims probs w = (.ok w.entries.length,
      { w with entries := w.entries ++ [⟨v, []⟩], rng := w.rng.skip us.length ns.length }) :=
  (createRandomSequenceEntry_wp w).2 v _ (h _ hw)

/-- C53: these are all outcomes: in exact arithmetic, with valid primitives of which one can be placed, every random
source delivers such draws. -/
theorem C53_every_outcome {n : ℕ} {prims : List Primitive} (hv : ∀ p ∈ prims, p.Valid n)
    (hne : placeable prims ≠ []) (r : Rng) :
    ∃ i p us ns u qs, (placeable prims)[i]? = some p ∧ p.DrawsUnitary 0 us u ∧ p.DrawsQubits n ns qs ∧
      qs.Nodup ∧ 2 ^ qs.length = u.getDimension ∧ qs ≠ [] ∧ (∀ q ∈ qs, q < n) ∧
      r.Delivers us (((placeable prims).length, i) :: ns) ∧
      createRandomEntryVal 0 (2 ^ n) prims none r =
        (.ok ⟨u, qs⟩, r.skip us.length (ns.length + 1)) := by
  have hpos := List.length_pos_iff.mpr hne
  have hlt := Nat.mod_lt (r.nat r.npos) hpos
  obtain ⟨hp1, hp2⟩ := List.mem_filter.mp (List.getElem_mem hlt)
  rw [decide_eq_true_eq] at hp2
  obtain ⟨k, hk1, hk2, hk3, hk4⟩ := hv _ hp1
  obtain ⟨us, u, h1, h2, h3⟩ := drawsUnitary_exists hk3 (r.skip 0 1)
  obtain ⟨ns, qs, h4, h5, -, h7, h8, h9⟩ := drawsQubits_exists hk2 hp2 hk4 ((r.skip 0 1).skip us.length 0)
  have hd : r.Delivers us (((placeable prims).length, r.nat r.npos % (placeable prims).length) :: ns) := by
    have e : r.Delivers ([] ++ (us ++ []))
        ([((placeable prims).length, r.nat r.npos % (placeable prims).length)] ++ ([] ++ ns)) := by
      refine Rng.delivers_append.mpr ⟨⟨by simp, ?_⟩, Rng.delivers_append.mpr ⟨h2, h5⟩⟩
      intro i hi
      have : i = 0 := by simpa using hi
      subst this
      simp
    simpa using e
  have hdim : 2 ^ qs.length = u.getDimension := by rw [h8]; exact h3.dim.symm
  have hne' : qs ≠ [] := by rintro rfl; simp at h8; omega
  refine ⟨_, _, us, ns, u, qs, List.getElem?_eq_getElem hlt, h1, h4, h7, hdim, hne', h9, hd, ?_⟩
  exact C53_gate_unweighted (List.getElem?_eq_getElem hlt) h1
    (by rw [show intLog2 (2 ^ n) = n from log2_pow n]; exact h4) h7 hdim hne' r hd

/-- C53: without restriction, all lists of `k` distinct qubits are equally likely: each is the outcome of the same
number `(n - k)!` of the `n!` equally likely draws. -/
theorem C53_qubits_equally_likely {n : ℕ} {p : Primitive} (hp : p.allowedApplyTo = none) {qs : List ℕ}
    (h1 : qs.Nodup) (h2 : ∀ q ∈ qs, q < n) :
    Nat.card {ns : List (ℕ × ℕ) // p.DrawsQubits n ns qs} = (n - qs.length).factorial := by
  have h3 := Rng.card_draws (List.nodup_range (n := n)) (fun order => qs <+: order)
  rw [Rng.card_perm_prefix List.nodup_range h1 fun x hx => List.mem_range.mpr (h2 x hx), List.length_range] at h3
  rw [← h3]
  unfold Primitive.DrawsQubits
  rw [hp]

/-- C53: with a list of allowed positions each index of that list corresponds to exactly one outcome of one draw. -/
theorem C53_allowed_equally_likely {n : ℕ} {p : Primitive} {lists : List (List ℤ)}
    (hp : p.allowedApplyTo = some lists) (hnd : lists.Nodup) {qs : List ℕ} (h : qs.map Int.ofNat ∈ lists) :
    ∃! j, j < lists.length ∧ p.DrawsQubits n [(lists.length, j)] qs := by
  obtain ⟨j, hj, hjq⟩ := List.getElem_of_mem h
  refine ⟨j, ⟨hj, ?_⟩, ?_⟩
  · unfold Primitive.DrawsQubits
    rw [hp]
    exact ⟨j, rfl, by rw [List.getElem?_eq_getElem hj, hjq]⟩
  · rintro j' ⟨hj', hd⟩
    unfold Primitive.DrawsQubits at hd
    rw [hp] at hd
    obtain ⟨j2, h1, h2⟩ := hd
    simp only [List.cons.injEq, Prod.mk.injEq, and_true, true_and] at h1
    subst h1
    rw [List.getElem?_eq_getElem hj', Option.some.injEq] at h2
    exact (List.Nodup.getElem_inj_iff hnd).mp (h2.trans hjq.symm)

/-- C53: every gate the compiler is allowed to use can be drawn: for a primitive that can be placed, parameter values
in their ranges (the upper end excluded) and allowed qubits there are draws yielding this gate. -/
theorem C53_reachable {τ : Arith} {D : ℕ} {prims : List Primitive} {p : Primitive} (hp : p ∈ prims) {u : Unitary}
    {qs : List ℕ}
    (hu : match p.unitary with
      | .inl u0 => u = u0
      | .inr pu => ∃ values : List ℝ, values.length = pu.parameters.length ∧
        (∀ qv ∈ pu.parameters.zip values, qv.1.minValue ≤ qv.2 ∧
          (qv.2 < qv.1.maxValue ∨ qv.1.maxValue = qv.1.minValue ∧ qv.2 = qv.1.minValue)) ∧
        pu.asUnitary τ values = .ok u)
    (hq : match p.allowedApplyTo with
      | some lists => qs.map Int.ofNat ∈ lists
      | none => ∀ q ∈ qs, q < intLog2 D)
    (h1 : qs.Nodup) (h2 : 2 ^ qs.length = u.getDimension) (h3 : qs ≠ []) :
    ∃ us ns, Rng.InRange ns ∧ Rng.Yields (createRandomEntryVal τ D prims none) us ns ⟨u, qs⟩ := by
  have hpl : p ∈ placeable prims := by
    refine List.mem_filter.mpr ⟨hp, ?_⟩
    rw [decide_eq_true_eq]
    intro he
    rw [he] at hq
    simp at hq
  obtain ⟨i, hi, hip⟩ := List.getElem_of_mem hpl
  have hi' : (placeable prims)[i]? = some p := by rw [List.getElem?_eq_getElem hi, hip]
  have hus : ∃ us, p.DrawsUnitary τ us u := by
    unfold Primitive.DrawsUnitary
    rcases hpu : p.unitary with u0 | pu
    · rw [hpu] at hu; exact ⟨[], rfl, hu⟩
    · rw [hpu] at hu
      obtain ⟨vs, g1, g2, g3⟩ := hu
      obtain ⟨us, g4, g5⟩ := atFraction_list pu.parameters vs g1 g2
      exact ⟨us, g4, by rw [g5]; exact g3⟩
  have hns : ∃ ns, Rng.InRange ns ∧ p.DrawsQubits (intLog2 D) ns qs := by
    unfold Primitive.DrawsQubits
    rcases hpl : p.allowedApplyTo with _ | lists
    · rw [hpl] at hq
      have hc := Rng.card_perm_prefix (List.nodup_range (n := intLog2 D)) h1 fun x hx => List.mem_range.mpr (hq x hx)
      have hpos : 0 < Nat.card {l' : List ℕ // l'.Perm (List.range (intLog2 D)) ∧ qs <+: l'} := by
        rw [hc]; exact Nat.factorial_pos _
      obtain ⟨⟨order, ho1, ho2⟩⟩ := (Nat.card_pos_iff.mp hpos).1
      obtain ⟨ns, ⟨g1, g2⟩, -⟩ := Rng.shuffle_unique (List.nodup_range (n := intLog2 D)) ho1
      rw [List.length_range] at g1
      exact ⟨ns, g1.2, g1, order, g2, ho2⟩
    · rw [hpl] at hq
      obtain ⟨j, hj, hjq⟩ := List.getElem_of_mem hq
      exact ⟨_, Rng.inRange_cons.mpr ⟨hj, Rng.inRange_nil⟩, j, rfl, by rw [List.getElem?_eq_getElem hj, hjq]⟩
  obtain ⟨us, hus⟩ := hus
  obtain ⟨ns, hr, hns⟩ := hns
  exact ⟨us, _, Rng.inRange_cons.mpr ⟨hi, hr⟩, C53_gate_unweighted hi' hus hns h1 h2 h3⟩

/-- Three primitives on three qubits: one that cannot be placed, one for qubit 0 only and one for any qubit.  The gate on
qubit 2 can be drawn; two of the six shuffles give this position. -/
example : let a : Primitive := ⟨.inl (tinyPhase 0), some []⟩
    let b : Primitive := ⟨.inl (tinyPhase 1), some [[0]]⟩
    let c : Primitive := ⟨.inl (tinyPhase 2), none⟩
    (∃ us ns, Rng.InRange ns ∧ Rng.Yields (createRandomEntryVal 0 8 [a, b, c] none) us ns ⟨tinyPhase 2, [2]⟩) ∧
      Nat.card {ns : List (ℕ × ℕ) // c.DrawsQubits 3 ns [2]} = 2 ∧
      (placeable [a, b, c])[1]? = some c ∧ ∀ p ∈ [a, b, c], p.Valid 3 := by
  intro a b c
  have hlog : intLog2 8 = 3 := log2_pow 3
  refine ⟨C53_reachable (p := c) (by simp) rfl ?_ (by simp) rfl (by simp), ?_, ?_, ?_⟩
  · intro q hq
    rw [List.mem_singleton.mp hq, hlog]
    norm_num
  · rw [C53_qubits_equally_likely rfl (by simp) (by simp)]; rfl
  · simp [placeable, a, b, c]
  · intro p hp
    simp only [List.mem_cons, List.not_mem_nil, or_false] at hp
    rcases hp with rfl | rfl | rfl
    · exact ⟨1, le_rfl, by norm_num, tinyPhase_exact 0, by simp [a]⟩
    · exact ⟨1, le_rfl, by norm_num, tinyPhase_exact 1, by simp [b]⟩
    · exact ⟨1, le_rfl, by norm_num, tinyPhase_exact 2, trivial⟩

/-! ## C54: shuffles -/

/-- C54: a list of distinct objects is brought into each possible order by exactly one combination of draws, so all
orders are equally likely. -/
theorem C54_shuffle_uniform {α : Type} {l l' : List α} (hnd : l.Nodup) (hp : l'.Perm l) :
    ∃! ns, Rng.ShuffleDraws l.length ns ∧ Rng.Yields (Rng.shuffle l) [] ns l' := Rng.shuffle_unique hnd hp

/-- C54: every random source delivers draws for a shuffle, and the result is the one they determine. -/
theorem C54_shuffle_total {α : Type} (l : List α) (r : Rng) :
    ∃ ns l', Rng.ShuffleDraws l.length ns ∧ r.Delivers [] ns ∧ Rng.Yields (Rng.shuffle l) [] ns l' ∧ l'.Perm l ∧
      Rng.shuffle l r = (.ok l', r.skip 0 (l.length - 1)) := by
  obtain ⟨ns, h1, h2⟩ := Rng.shuffle_delivers r l.length
  obtain ⟨l', h3⟩ := Rng.shuffle_draws l h1
  refine ⟨ns, l', h1, h2, h3, h3.shuffle_perm h1.2, ?_⟩
  have hlen : ns.length = l.length - 1 := by
    have := congrArg List.length h1.1
    simpa using this
  rw [h3 r h2, hlen]; rfl

/-- C54: there are `n!` combinations of draws. -/
theorem C54_draws_count (n : ℕ) : Nat.card {ns : List (ℕ × ℕ) // Rng.ShuffleDraws n ns} = n.factorial := by
  have h := Rng.card_draws (List.nodup_range (n := n)) (fun _ => True)
  have h2 := Rng.card_perm (List.nodup_range (n := n))
  rw [List.length_range] at h h2
  rw [← h2]
  simp only [and_true] at h
  rw [← h]
  refine Nat.card_congr (Equiv.subtypeEquivRight fun ns => ⟨fun hns => ⟨hns, ?_⟩, fun hns => hns.1⟩)
  exact Rng.shuffle_draws (List.range n) (by rw [List.length_range]; exact hns)

/-- C54: choosing `k` of `n` objects without replacement: each list of `k` distinct ones is the outcome of `(n - k)!`
combinations of draws. -/
theorem C54_choice_uniform {n : ℕ} {a : List ℕ} (h1 : a.Nodup) (h2 : ∀ x ∈ a, x < n) :
    Nat.card {ns : List (ℕ × ℕ) // Rng.ShuffleDraws n ns ∧ Rng.Yields (Rng.choiceNoReplace n a.length) [] ns a} =
      (n - a.length).factorial := by
  have hk : a.length ≤ n := by
    have h : a.length ≤ (List.range n).length :=
      (List.subperm_of_subset h1 fun x hx => List.mem_range.mpr (h2 x hx)).length_le
    rwa [List.length_range] at h
  have h := Rng.card_draws (List.nodup_range (n := n)) (fun order => a <+: order)
  rw [Rng.card_perm_prefix List.nodup_range h1 fun x hx => List.mem_range.mpr (h2 x hx), List.length_range] at h
  rw [← h]
  refine Nat.card_congr (Equiv.subtypeEquivRight fun ns => and_congr_right fun hns => ⟨fun hy => ?_, ?_⟩)
  · obtain ⟨order, ho⟩ := Rng.shuffle_draws (List.range n) (ns := ns) (by rw [List.length_range]; exact hns)
    refine ⟨order, ho, List.prefix_iff_eq_take.mpr ?_⟩
    exact Rng.Yields.inj hns.2 hy (Rng.choiceNoReplace_yields hk ho)
  · rintro ⟨order, ho, hpre⟩
    have := Rng.choiceNoReplace_yields hk ho
    rwa [← List.prefix_iff_eq_take.mp hpre] at this

/-- C54: a random layer is a shuffle, by as many draws as that takes, of a list of new, different entry objects. -/
theorem C54_layer_shuffled {τ : Arith} {D : ℕ} {counts : List (Primitive × ℤ)} {w w' : World} {rs' : List ℕ}
    (h : createRandomLayer τ D counts w = (.ok rs', w')) :
    ∃ rs w1 ns, createLayerEntries τ D counts w = (.ok rs, w1) ∧ rs.Nodup ∧ (∀ r ∈ rs, w.entries.length ≤ r) ∧
      Rng.ShuffleDraws rs.length ns ∧ w1.rng.Delivers [] ns ∧ Rng.Yields (Rng.shuffle rs) [] ns rs' ∧
      w' = { w1 with rng := w1.rng.skip 0 ns.length } := by
  unfold createRandomLayer at h
  rw [PyM.bind_eq_ok_iff] at h
  obtain ⟨rs, w1, h1, h⟩ := h
  obtain ⟨hrs, -⟩ := createLayerEntries_refs h1
  obtain ⟨ns, h2, h3⟩ := Rng.shuffle_delivers w1.rng rs.length
  obtain ⟨l', h4⟩ := Rng.shuffle_draws rs h2
  have h5 : withRng (Rng.shuffle rs) w1 = (.ok l', { w1 with rng := w1.rng.skip 0 ns.length }) := by
    unfold withRng PyM.zoom
    rw [h4 _ h3]; rfl
  rw [h5] at h
  cases h
  refine ⟨rs, w1, ns, h1, by rw [hrs]; exact List.nodup_range', fun r hr => ?_, h2, h3, h4, rfl⟩
  rw [hrs] at hr
  exact (List.mem_range'_1.mp hr).1

/-- Two different objects: the draw 0 exchanges them, the draw 1 does not. -/
example : Rng.Yields (Rng.shuffle ['a', 'b']) [] [(2, 0)] ['b', 'a'] ∧
    Rng.Yields (Rng.shuffle ['a', 'b']) [] [(2, 1)] ['a', 'b'] :=
  ⟨Rng.Yields.bind (us := []) (us' := []) (ns' := []) (Rng.Yields.randBelow 2 0) (Rng.Yields.pure _),
    Rng.Yields.bind (us := []) (us' := []) (ns' := []) (Rng.Yields.randBelow 2 1) (Rng.Yields.pure _)⟩

end Stoq
