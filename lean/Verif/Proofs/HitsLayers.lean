import Verif.Proofs.HitsGates
import Verif.Props.Draws

/-! # Random layers come close to every layer that can be drawn -/

namespace Stoq

open Compiler Matrix MeasureTheory
open scoped Matrix.Norms.L2Operator

variable {B : ℕ} {α β : Type}

namespace Rng

/-- Some finite list of draws leads to this result. -/
def Possible (m : PyM Rng α) (a : α) : Prop := ∃ us ns, InRange ns ∧ Yields m us ns a

theorem Possible.result {m : PyM Rng α} {a : α} (h : Possible m a) : Result m a := by
  obtain ⟨us, ns, h1, h2⟩ := h
  obtain ⟨r, -, -, hr⟩ := delivers_exists us h1 0 0
  exact ⟨r, _, h2 r hr⟩

theorem Possible.bind {m : PyM Rng α} {k : α → PyM Rng β} {a : α} {b : β} (h : Possible m a) (h' : Possible (k a) b) :
    Possible (m >>= k) b := by
  obtain ⟨us, ns, h1, h2⟩ := h
  obtain ⟨us', ns', h3, h4⟩ := h'
  exact ⟨_, _, inRange_append.mpr ⟨h1, h3⟩, h2.bind h4⟩

theorem Possible.pure (a : α) : Possible (Pure.pure a) a := ⟨[], [], inRange_nil, Yields.pure a⟩

/-- Corresponding lists are shuffled in corresponding ways. -/
theorem shuffleFrom_forall₂ {N : α → β → Prop} : ∀ (i : ℕ) {l l1 : List α} {l' : List β} {r r' : Rng},
    List.Forall₂ N l l' → Rng.shuffleFrom i l r = (.ok l1, r') →
    ∃ l1', Rng.shuffleFrom i l' r = (.ok l1', r') ∧ List.Forall₂ N l1 l1'
  | 0, l, l1, l', r, r', hN, h => by
    cases h
    exact ⟨l', rfl, hN⟩
  | i + 1, l, l1, l', r, r', hN, h => by
    unfold Rng.shuffleFrom at h ⊢
    rw [PyM.bind_eq_ok_iff] at h
    obtain ⟨j, r1, hj, h⟩ := h
    obtain ⟨l1', h1, h2⟩ := shuffleFrom_forall₂ i (swapAt_forall₂ hN (i + 1) j) h
    exact ⟨l1', PyM.bind_eq_ok_iff.mpr ⟨j, r1, hj, h1⟩, h2⟩

/-- A shuffle can lead to every order, also of a list with repetitions. -/
theorem Possible.shuffle {l l' : List α} (h : l'.Perm l) : Possible (Rng.shuffle l) l' := by
  set N : ℕ → α → Prop := fun i x => l[i]? = some x
  have h1 : List.Forall₂ (flip N) l (List.range l.length) := by
    rw [List.forall₂_iff_get]
    refine ⟨by simp, fun i hi hi' => ?_⟩
    simp [flip, N]
  obtain ⟨w, h2, h3⟩ := List.perm_comp_forall₂ h h1
  obtain ⟨ns, ⟨h4, h5⟩, -⟩ := shuffle_unique (List.nodup_range (n := l.length)) h3
  refine ⟨[], ns, h4.2, fun r hr => ?_⟩
  have h6 := h5 r hr
  unfold Rng.shuffle at h6 ⊢
  rw [List.length_range] at h6
  obtain ⟨l1, h7, h8⟩ := shuffleFrom_forall₂ (l.length - 1) h1.flip h6
  rw [h7]
  have e : l1 = l' := by
    have h9 := h2.flip
    refine List.ext_getElem (by rw [← h8.length_eq, ← h9.length_eq]) fun i hi hi' => ?_
    have a1 := h8.get (i := i) (by rw [h8.length_eq]; exact hi) hi
    have a2 := h9.get (i := i) (by rw [h9.length_eq]; exact hi') hi'
    have a3 : some l1[i] = some l'[i] := Eq.trans (Eq.symm a1) a2
    exact Option.some.inj a3
  rw [e]

end Rng

namespace Metropolis

variable {n : ℕ} {gen : Primitive → PyM Rng EntryVal} {counts : List (Primitive × ℤ)}

theorem many_result {g : PyM Rng EntryVal} {k : ℕ} {vs : List EntryVal} (h : Rng.Result (many g k) vs) :
    vs.length = k ∧ ∀ v ∈ vs, Rng.Result g v := by
  induction k generalizing vs with
  | zero => rw [Rng.result_pure h]; simp
  | succ k ih =>
    unfold many at h
    obtain ⟨v, hv, h⟩ := Rng.result_bind h
    obtain ⟨ws, hw, h⟩ := Rng.result_bind h
    rw [Rng.result_pure h]
    obtain ⟨h1, h2⟩ := ih hw
    exact ⟨by rw [List.length_cons, h1], fun x hx => (List.mem_cons.mp hx).elim (fun e => e ▸ hv) (h2 x)⟩

theorem many_possible {g : PyM Rng EntryVal} {vs : List EntryVal} (h : ∀ v ∈ vs, Rng.Possible g v) :
    Rng.Possible (many g vs.length) vs := by
  induction vs with
  | nil => exact Rng.Possible.pure _
  | cons v vs ih =>
    rw [List.length_cons, many]
    exact (h v List.mem_cons_self).bind ((ih fun x hx => h x (List.mem_cons_of_mem _ hx)).bind (Rng.Possible.pure _))

theorem block_result {vs : List EntryVal} (h : Rng.Result (block gen counts) vs) :
    ∃ groups, Grouped (fun p v => Rng.Result (gen p) v) counts groups ∧ vs = groups.flatten := by
  induction counts generalizing vs with
  | nil => exact ⟨[], .nil, Rng.result_pure h⟩
  | cons pc counts ih =>
    obtain ⟨p, k⟩ := pc
    unfold block at h
    obtain ⟨ws, hw, h⟩ := Rng.result_bind h
    obtain ⟨more, hm, h⟩ := Rng.result_bind h
    obtain ⟨groups, h1, h2⟩ := ih hm
    exact ⟨ws :: groups, .cons (many_result hw) h1, by rw [Rng.result_pure h, List.flatten_cons, h2]⟩

theorem block_possible {groups : List (List EntryVal)}
    (h : Grouped (fun p v => Rng.Possible (gen p) v) counts groups) : Rng.Possible (block gen counts) groups.flatten := by
  unfold Grouped at h
  induction h with
  | nil => exact Rng.Possible.pure _
  | @cons pc gs counts groups h1 _ ih =>
    obtain ⟨p, k⟩ := pc
    rw [block, List.flatten_cons]
    refine Rng.Possible.bind ?_ (ih.bind (Rng.Possible.pure _))
    rw [← h1.1]
    exact many_possible h1.2

theorem many_total {g : PyM Rng EntryVal} (h : Rng.Total B g) : ∀ k, Rng.Total B (many g k)
  | 0 => Rng.Total.pure _
  | k + 1 => by
    unfold many
    exact h.bind fun _ _ => (many_total h k).bind fun _ _ => Rng.Total.pure _

theorem block_total : ∀ {counts : List (Primitive × ℤ)}, (∀ pc ∈ counts, 0 < pc.2 → Rng.Total B (gen pc.1)) →
    Rng.Total B (block gen counts)
  | [], _ => Rng.Total.pure _
  | (p, k) :: counts, h => by
    unfold block
    refine Rng.Total.bind ?_ fun _ _ => (block_total fun pc hpc => h pc (List.mem_cons_of_mem _ hpc)).bind fun _ _ =>
      Rng.Total.pure _
    by_cases hk : 0 < k
    · exact many_total (h _ List.mem_cons_self hk) _
    · rw [Int.toNat_of_nonpos (by omega)]
      exact Rng.Total.pure _

/-- Gates of the same place of two lists are close. -/
def NearGates (n : ℕ) (ε : ℝ) : List EntryVal → List EntryVal → Prop :=
  List.Forall₂ fun v v' => NearCircuit n ε [v] [v']

theorem many_hits {g : PyM Rng EntryVal} {ε : ℝ} (h : ∀ v, Rng.Result g v →
      ∃ q : ℝ, 0 < q ∧ q ≤ 1 ∧ Rng.Hits B g (fun v' => NearCircuit n ε [v] [v']) q) {k : ℕ} {vs : List EntryVal}
    (hv : Rng.Result (many g k) vs) : ∃ q : ℝ, 0 < q ∧ q ≤ 1 ∧ Rng.Hits B (many g k) (NearGates n ε vs) q := by
  induction k generalizing vs with
  | zero => rw [Rng.result_pure hv]; exact ⟨1, one_pos, le_rfl, Rng.Hits.pure .nil⟩
  | succ k ih =>
    unfold many at hv ⊢
    obtain ⟨v, hv1, hv⟩ := Rng.result_bind hv
    obtain ⟨ws, hw, hv⟩ := Rng.result_bind hv
    rw [Rng.result_pure hv]
    obtain ⟨q1, a1, a2, a3⟩ := h v hv1
    obtain ⟨q2, b1, b2, b3⟩ := ih hw
    exact ⟨q1 * q2, mul_pos a1 b1, mul_le_one₀ a2 b1.le b2, a3.bind b1.le b2
      (fun x _ hx => b3.map fun y _ hy => List.Forall₂.cons hx hy)
      fun x _ => b3.total.bind fun _ _ => Rng.Total.pure _⟩

theorem block_hits {ε : ℝ} : ∀ {counts : List (Primitive × ℤ)}, (∀ pc ∈ counts, 0 < pc.2 → Rng.Total B (gen pc.1) ∧
      ∀ v, Rng.Result (gen pc.1) v → ∃ q : ℝ, 0 < q ∧ q ≤ 1 ∧
        Rng.Hits B (gen pc.1) (fun v' => NearCircuit n ε [v] [v']) q) → ∀ {vs : List EntryVal},
    Rng.Result (block gen counts) vs → ∃ q : ℝ, 0 < q ∧ q ≤ 1 ∧ Rng.Hits B (block gen counts) (NearGates n ε vs) q
  | [], _, vs, hv => by rw [Rng.result_pure hv]; exact ⟨1, one_pos, le_rfl, Rng.Hits.pure .nil⟩
  | (p, k) :: counts, h, vs, hv => by
    unfold block at hv ⊢
    obtain ⟨ws, hw, hv⟩ := Rng.result_bind hv
    obtain ⟨more, hm, hv⟩ := Rng.result_bind hv
    rw [Rng.result_pure hv]
    have h1 : ∃ q : ℝ, 0 < q ∧ q ≤ 1 ∧ Rng.Hits B (many (gen p) k.toNat) (NearGates n ε ws) q := by
      by_cases hk : 0 < k
      · exact many_hits (h _ List.mem_cons_self hk).2 hw
      · rw [Int.toNat_of_nonpos (by omega)] at hw ⊢
        rw [Rng.result_pure hw]
        exact ⟨1, one_pos, le_rfl, Rng.Hits.pure .nil⟩
    obtain ⟨q1, a1, a2, a3⟩ := h1
    obtain ⟨q2, b1, b2, b3⟩ := block_hits (fun pc hpc => h pc (List.mem_cons_of_mem _ hpc)) hm
    exact ⟨q1 * q2, mul_pos a1 b1, mul_le_one₀ a2 b1.le b2, a3.bind b1.le b2
      (fun x _ hx => b3.map fun y _ hy => List.rel_append hx hy)
      fun x _ => b3.total.bind fun _ _ => Rng.Total.pure _⟩

theorem near_gates {ε : ℝ} {l l' : List EntryVal} (h : NearGates n ε l l')
    (hl : ∀ v ∈ l, v.WF ∧ v.Fits n ∧ v.Exact) (hl' : ∀ v ∈ l', v.WF ∧ v.Fits n ∧ v.Exact) :
    NearCircuit n (l.length * ε) l l' := by
  unfold NearGates at h
  induction h with
  | nil => exact ⟨1, norm_one, by simp⟩
  | @cons v v' l l' h1 _ ih =>
    have h3 := ih (fun x hx => hl x (List.mem_cons_of_mem _ hx)) (fun x hx => hl' x (List.mem_cons_of_mem _ hx))
    have h4 := near_append (g := [v]) (g' := [v']) (one_unitary (hl' v' List.mem_cons_self))
      (mem_specialUnitaryGroup_iff.mp (circuit_mem_su fun x hx => hl x (List.mem_cons_of_mem _ hx))).1 h1 h3
    rw [List.length_cons]
    push_cast
    rw [show ((l.length : ℝ) + 1) * ε = ε + l.length * ε by ring]
    exact h4

/-- Every result of drawing a gate is the result of finitely many draws. -/
theorem gate_possible {p : Primitive} (hv : p.Valid n) (hp : p.allowedApplyTo ≠ some []) {v : EntryVal}
    (h : Rng.Result (createRandomEntryVal 0 (2 ^ n) [p] none) v) :
    Rng.Possible (createRandomEntryVal 0 (2 ^ n) [p] none) v := by
  obtain ⟨r, r', h⟩ := h
  obtain ⟨i, q, us, ns, u, qs, h1, h2, h3, h4, h5, h6, -, h8, h9⟩ := C53_every_outcome (n := n) (prims := [p])
    (by simpa using hv) (by simp [placeable, hp]) r
  rw [h] at h9
  cases h9
  refine ⟨us, _, Rng.inRange_cons.mpr ⟨?_, ?_⟩, C53_gate_unweighted h1 h2
    (by rw [show intLog2 (2 ^ n) = n from log2_pow n]; exact h3) h4 h5 h6⟩
  · exact (List.getElem?_eq_some_iff.mp h1).1
  · unfold Primitive.DrawsQubits at h3
    split at h3
    · obtain ⟨j, rfl, hj⟩ := h3
      exact Rng.inRange_cons.mpr ⟨(List.getElem?_eq_some_iff.mp hj).1, Rng.inRange_nil⟩
    · exact h3.1.2

theorem layer_possible {l : List EntryVal} {groups : List (List EntryVal)}
    (h : Grouped (fun p v => Rng.Possible (gen p) v) counts groups) (hl : l.Perm groups.flatten) :
    Rng.Possible (layer gen counts) l :=
  (block_possible h).bind (Rng.Possible.shuffle hl)

theorem layer_result {l : List EntryVal} (h : Rng.Result (layer gen counts) l) :
    ∃ groups, Grouped (fun p v => Rng.Result (gen p) v) counts groups ∧ l.Perm groups.flatten := by
  unfold layer at h
  obtain ⟨vs, hv, r, r', hs⟩ := Rng.result_bind h
  obtain ⟨groups, h1, rfl⟩ := block_result hv
  obtain ⟨l', r2, h2, h3⟩ := Rng.shuffle_perm groups.flatten r
  rw [hs] at h2
  cases h2
  exact ⟨groups, h1, h3⟩

theorem groups_length {P : Primitive → EntryVal → Prop} {groups : List (List EntryVal)}
    (h : Grouped P counts groups) : groups.flatten.length = (counts.map fun pc => pc.2.toNat).sum := by
  induction h with
  | nil => rfl
  | cons h1 _ ih => rw [List.flatten_cons, List.length_append, ih, h1.1, List.map_cons, List.sum_cons]

theorem groups_mem {P : Primitive → EntryVal → Prop} {groups : List (List EntryVal)}
    (h : Grouped P counts groups) : ∀ v ∈ groups.flatten, ∃ pc ∈ counts, 0 < pc.2 ∧ P pc.1 v := by
  induction h with
  | nil => simp
  | @cons pc gs counts groups h1 _ ih =>
    intro v hv
    rw [List.flatten_cons] at hv
    rcases List.mem_append.mp hv with hv | hv
    · have := List.length_pos_of_mem hv
      exact ⟨pc, List.mem_cons_self, by omega, h1.2 v hv⟩
    · obtain ⟨pc', h3, h4⟩ := ih v hv
      exact ⟨pc', List.mem_cons_of_mem _ h3, h4⟩

theorem groups_mono {P Q : Primitive → EntryVal → Prop} {groups : List (List EntryVal)}
    (h : Grouped P counts groups) (hPQ : ∀ pc ∈ counts, 0 < pc.2 → ∀ v, P pc.1 v → Q pc.1 v) :
    Grouped Q counts groups := by
  induction h with
  | nil => exact .nil
  | @cons pc gs counts groups h1 _ ih =>
    refine .cons ⟨h1.1, fun v hv => ?_⟩ (ih fun pc hpc => hPQ pc (List.mem_cons_of_mem _ hpc))
    have := List.length_pos_of_mem hv
    exact hPQ pc List.mem_cons_self (by omega) v (h1.2 v hv)

theorem sum_toNat (h : ∀ pc ∈ counts, 0 ≤ pc.2) :
    ((counts.map fun pc => pc.2.toNat).sum : ℕ) = ((counts.map Prod.snd).sum : ℤ).toNat := by
  have : (((counts.map fun pc => pc.2.toNat).sum : ℕ) : ℤ) = (counts.map Prod.snd).sum := by
    induction counts with
    | nil => rfl
    | cons pc counts ih =>
      rw [List.map_cons, List.sum_cons, List.map_cons, List.sum_cons]
      rw [Nat.cast_add, ih fun pc' hpc' => h pc' (List.mem_cons_of_mem _ hpc'),
        Int.toNat_of_nonneg (h pc List.mem_cons_self)]
  omega

/-- Random layers. -/
theorem layer_source (hv : ∀ pc ∈ counts, pc.1.Valid n) (hc : ∀ pc ∈ counts, 0 ≤ pc.2)
    (hcont : ∀ pc ∈ counts, 0 < pc.2 → pc.1.allowedApplyTo ≠ some [] ∧ pc.1.Continuous) (hB : n ≤ B) (hB1 : 1 ≤ B)
    (hB' : ∀ pc ∈ counts, ∀ lists, pc.1.allowedApplyTo = some lists → lists.length ≤ B)
    (hB2 : (counts.map fun pc => pc.2.toNat).sum ≤ B) :
    Source B n ((counts.map Prod.snd).sum : ℤ).toNat (layer (fun p => createRandomEntryVal 0 (2 ^ n) [p] none) counts) := by
  have hch : ∀ pc ∈ counts, 0 < pc.2 → ChoiceOk [pc.1] none := by
    intro pc hpc h0
    unfold ChoiceOk
    rw [filter_usable, show placeable [pc.1] = [pc.1] by simp [placeable, (hcont pc hpc h0).1]]
    exact Nat.one_pos
  have hval : ∀ pc ∈ counts, ∀ p ∈ [pc.1], p.Valid n := fun pc hpc p hp => by
    rw [List.mem_singleton.mp hp]; exact hv pc hpc
  have hlists : ∀ pc ∈ counts, ∀ p ∈ [pc.1], ∀ lists, p.allowedApplyTo = some lists → lists.length ≤ B :=
    fun pc hpc p hp => by rw [List.mem_singleton.mp hp]; exact hB' pc hpc
  have htot : ∀ pc ∈ counts, 0 < pc.2 → Rng.Total B (createRandomEntryVal 0 (2 ^ n) [pc.1] none) := fun pc hpc h0 =>
    createRandomEntryVal_total (hch pc hpc h0) (hval pc hpc) hB hB1 (hlists pc hpc)
  have hgood : ∀ l, Rng.Result (layer (fun p => createRandomEntryVal 0 (2 ^ n) [p] none) counts) l →
      ∀ v ∈ l, v.WF ∧ v.Fits n ∧ v.Exact := by
    intro l hl v hv'
    obtain ⟨groups, h1, h2⟩ := layer_result hl
    obtain ⟨pc, hpc, -, h3⟩ := groups_mem h1 v (h2.mem_iff.mp hv')
    exact result_gate (hval pc hpc) h3
  have hlen : ∀ l, Rng.Result (layer (fun p => createRandomEntryVal 0 (2 ^ n) [p] none) counts) l →
      l.length = ((counts.map Prod.snd).sum : ℤ).toNat := by
    intro l hl
    obtain ⟨groups, h1, h2⟩ := layer_result hl
    rw [h2.length_eq, groups_length h1, sum_toNat hc]
  refine ⟨?_, ⟨fun l hl => hlen l hl, ?_, ?_⟩, ?_⟩
  · unfold layer
    refine (block_total htot).bind fun vs hvs => ?_
    obtain ⟨groups, h1, rfl⟩ := block_result hvs
    exact Rng.Total.shuffle (by rw [groups_length h1]; exact hB2) hB1
  · intro l hl
    obtain ⟨groups, h1, h2⟩ := layer_result hl
    refine (layer_possible (groups_mono h1 fun pc hpc h0 v hv' => ?_) ((List.reverse_perm l).trans h2)).result
    exact gate_possible (hv pc hpc) (hcont pc hpc h0).1 hv'
  · intro l hl
    exact (mem_specialUnitaryGroup_iff.mp (circuit_mem_su (hgood l hl))).1
  · intro l hl ε hε
    have hl' := hl
    unfold layer at hl'
    obtain ⟨vs, hvs, hs⟩ := Rng.result_bind hl'
    have hL : 0 < ε / (l.length + 1) := by positivity
    obtain ⟨q1, a1, a2, a3⟩ := block_hits (B := B) (n := n) (ε := ε / (l.length + 1)) (counts := counts)
      (gen := fun p => createRandomEntryVal 0 (2 ^ n) [p] none) (fun pc hpc h0 => ⟨htot pc hpc h0, fun v hv' =>
        createRandomEntryVal_hits (hch pc hpc h0) (hval pc hpc)
          (fun p hp => by rw [List.mem_singleton.mp hp]; exact (hcont pc hpc h0).2) hB hB1 (hlists pc hpc) hv' hL⟩) hvs
    have hblen : ∀ vs', Rng.Result (block (fun p => createRandomEntryVal 0 (2 ^ n) [p] none) counts) vs' →
        vs'.length ≤ B := by
      intro vs' hvs'
      obtain ⟨groups, h1, rfl⟩ := block_result hvs'
      rw [groups_length h1]
      exact hB2
    obtain ⟨q2, b1, b2, b3⟩ := Rng.Hits.shuffle (B := B)
      (N := fun v v' => NearCircuit n (ε / (l.length + 1)) [v] [v']) (hblen vs hvs) hB1 hs
    refine ⟨q1 * q2, mul_pos a1 b1, mul_le_one₀ a2 b1.le b2, ?_⟩
    have h1 : Rng.Hits B (layer (fun p => createRandomEntryVal 0 (2 ^ n) [p] none) counts)
        (NearGates n (ε / (l.length + 1)) l) (q1 * q2) := by
      unfold layer
      exact a3.bind b1.le b2 (fun vs' _ hnear => b3 vs' hnear) fun vs' hvs' => Rng.Total.shuffle (hblen vs' hvs') hB1
    refine h1.mono (fun l2 hr hn => ?_) le_rfl
    obtain ⟨c, hc1, hc2⟩ := near_gates hn (hgood l hl) (hgood l2 hr)
    refine ⟨c, hc1, hc2.trans ?_⟩
    rw [mul_div_assoc', div_le_iff₀ (by positivity)]
    nlinarith

end Metropolis

end Stoq
