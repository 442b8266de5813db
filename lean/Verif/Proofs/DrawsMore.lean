import Verif.Proofs.Draws
import Verif.Proofs.Change

/-! # Existence of draws; references made by a layer -/

namespace Stoq

open World Compiler

theorem drawsUnitary_exists {k : ℕ} {p : Primitive} (h : match p.unitary with
      | .inl u => u.Exact (2 ^ k)
      | .inr pu => pu.dimension = 2 ^ k ∧ (∀ q ∈ pu.parameters, q.minValue ≤ q.maxValue) ∧
          ∀ values : List ℝ, values.length = pu.parameters.length →
            (∀ pv ∈ pu.parameters.zip values, pv.1.minValue ≤ pv.2 ∧ pv.2 ≤ pv.1.maxValue) →
            ∃ a, pu.parameterizedMatrix values = .ok a ∧ a.rows = 2 ^ k ∧ a.cols = 2 ^ k ∧
              a.toMatrix (2 ^ k) ∈ Matrix.unitaryGroup (Fin (2 ^ k)) ℂ) (r : Rng) :
    ∃ us u, p.DrawsUnitary 0 us u ∧ r.Delivers us [] ∧ u.Exact (2 ^ k) := by
  obtain ⟨u, r', h1, h2⟩ := pickUnitary_valid h r
  rcases hu : p.unitary with u0 | pu
  · have : u = u0 := by
      have := pickUnitary_ok h1
      rw [hu] at this; exact this
    exact ⟨[], u, by unfold Primitive.DrawsUnitary; rw [hu]; exact ⟨rfl, this⟩, Rng.delivers_nil r, h2⟩
  · have hd : r.Delivers ((List.range pu.parameters.length).map fun i => r.unif (r.upos + i)) [] :=
      ⟨fun i hi => by simp, by simp⟩
    refine ⟨_, u, ?_, hd, h2⟩
    unfold Primitive.DrawsUnitary
    rw [hu]
    refine ⟨by simp, ?_⟩
    unfold pickUnitary at h1
    rw [hu] at h1
    simp only at h1
    rw [PyM.bind_of_ok (randomParameterValues_yields pu.parameters _ (by simp) r hd)] at h1
    exact (PyM.lift_eq_ok_iff.mp h1).1

theorem drawsQubits_exists {n k : ℕ} {p : Primitive} (hkn : k ≤ n) (hus : p.allowedApplyTo ≠ some [])
    (h : match p.allowedApplyTo with
      | none => True
      | some lists => ∀ l ∈ lists, l.Nodup ∧ l.length = k ∧ ∀ q ∈ l, 0 ≤ q ∧ q < (n : ℤ)) (r : Rng) :
    ∃ ns qs, p.DrawsQubits n ns qs ∧ r.Delivers [] ns ∧ Rng.InRange ns ∧ qs.Nodup ∧ qs.length = k ∧
      ∀ q ∈ qs, q < n := by
  unfold Primitive.DrawsQubits
  rcases hl : p.allowedApplyTo with _ | lists
  · obtain ⟨ns, h1, h2⟩ := Rng.shuffle_delivers r n
    obtain ⟨order, h3⟩ := Rng.shuffle_draws (List.range n) (by rw [List.length_range]; exact h1)
    have hp := h3.shuffle_perm h1.2
    refine ⟨ns, order.take k, ⟨h1, order, h3, List.take_prefix _ _⟩, h2, h1.2,
      (hp.nodup_iff.mpr List.nodup_range).sublist (List.take_sublist _ _), ?_, ?_⟩
    · rw [List.length_take, hp.length_eq, List.length_range]; omega
    · intro q hq
      exact List.mem_range.mp (hp.subset (List.mem_of_mem_take hq))
  · rw [hl] at h hus
    simp only at h ⊢
    have hpos : 0 < lists.length := List.length_pos_iff.mpr fun he => hus (by rw [he])
    have hlt := Nat.mod_lt (r.nat r.npos) hpos
    obtain ⟨h1, h2, h3⟩ := h _ (List.getElem_mem hlt)
    refine ⟨[(lists.length, r.nat r.npos % lists.length)], (lists[r.nat r.npos % lists.length]).map Int.toNat,
      ⟨_, rfl, ?_⟩, ⟨by simp, ?_⟩, ?_, ?_, ?_, ?_⟩
    · rw [List.getElem?_eq_getElem hlt, map_ofNat_toNat fun a ha => (h3 a ha).1]
    · intro i hi
      have : i = 0 := by simpa using hi
      subst this
      simp
    · exact Rng.inRange_cons.mpr ⟨hlt, Rng.inRange_nil⟩
    · have := map_ofNat_toNat (l := lists[r.nat r.npos % lists.length]) fun a ha => (h3 a ha).1
      rw [← this] at h1
      exact List.Nodup.of_map _ h1
    · simpa using h2
    · intro q hq
      obtain ⟨a, ha, rfl⟩ := List.mem_map.mp hq
      have := h3 a ha
      omega

/-- Parameter values that can be drawn: in the half-open range, or the only value of the range. -/
theorem atFraction_surj {q : Parameter} {v : ℝ} (h1 : q.minValue ≤ v)
    (h2 : v < q.maxValue ∨ q.maxValue = q.minValue ∧ v = q.minValue) :
    ∃ x, q.atFraction x = v := by
  rcases h2 with h2 | ⟨h2, h3⟩
  · have h0 : 0 < q.maxValue - q.minValue := by linarith
    refine ⟨⟨(v - q.minValue) / (q.maxValue - q.minValue), div_nonneg (by linarith) h0.le, ?_⟩, ?_⟩
    · rw [div_lt_one h0]; linarith
    · unfold Parameter.atFraction
      simp only
      rw [div_mul_cancel₀ _ h0.ne']
      ring
  · exact ⟨⟨0, by simp⟩, by unfold Parameter.atFraction; rw [h3]; simp⟩

theorem atFraction_list (ps : List Parameter) (vs : List ℝ) (hl : vs.length = ps.length)
    (h : ∀ qv ∈ ps.zip vs, qv.1.minValue ≤ qv.2 ∧
      (qv.2 < qv.1.maxValue ∨ qv.1.maxValue = qv.1.minValue ∧ qv.2 = qv.1.minValue)) :
    ∃ us : List (Set.Ico (0 : ℝ) 1), us.length = ps.length ∧ List.zipWith Parameter.atFraction ps us = vs := by
  induction ps generalizing vs with
  | nil => exact ⟨[], rfl, (List.length_eq_zero_iff.mp hl).symm⟩
  | cons p ps ih =>
    rcases vs with _ | ⟨v, vs⟩
    · simp at hl
    obtain ⟨us, h1, h2⟩ := ih vs (by simpa using hl) fun qv hqv => h qv (by simp [hqv])
    obtain ⟨h3, h4⟩ := h (p, v) (by simp)
    obtain ⟨x, hx⟩ := atFraction_surj h3 h4
    exact ⟨x :: us, by simp [h1], by simp [h2, hx]⟩

theorem createMany_refs {τ : Arith} {D : ℕ} {p : Primitive} {k : ℕ} {w w' : World} {rs : List ℕ}
    (h : createMany τ D p k w = (.ok rs, w')) :
    rs = List.range' w.entries.length k ∧ w'.entries.length = w.entries.length + k := by
  induction k generalizing w rs with
  | zero =>
    cases h
    exact ⟨rfl, rfl⟩
  | succ k ih =>
    unfold createMany at h
    rw [PyM.bind_eq_ok_iff] at h
    obtain ⟨e, w1, h1, h⟩ := h
    rw [PyM.bind_eq_ok_iff] at h
    obtain ⟨es, w2, h2, h⟩ := h
    cases h
    have hw := createRandomSequenceEntry_wp (τ := τ) (D := D) (prims := [p]) (probs := none) w
    rcases hc : createRandomEntryVal τ D [p] none w.rng with ⟨x | v, r⟩
    · rw [hw.1 x r hc] at h1; cases h1
    · rw [hw.2 v r hc] at h1; cases h1
      obtain ⟨h3, h4⟩ := ih h2
      simp only [List.length_append, List.length_cons, List.length_nil] at h3 h4
      rw [h3, h4]
      exact ⟨by rw [List.range'_succ], by omega⟩

theorem createLayerEntries_refs {τ : Arith} {D : ℕ} {counts : List (Primitive × ℤ)} {w w' : World} {rs : List ℕ}
    (h : createLayerEntries τ D counts w = (.ok rs, w')) : rs = List.range' w.entries.length rs.length ∧
      w'.entries.length = w.entries.length + rs.length := by
  induction counts generalizing w rs with
  | nil =>
    cases h
    exact ⟨rfl, rfl⟩
  | cons pc counts ih =>
    obtain ⟨p, c⟩ := pc
    unfold createLayerEntries at h
    rw [PyM.bind_eq_ok_iff] at h
    obtain ⟨es, w1, h1, h⟩ := h
    rw [PyM.bind_eq_ok_iff] at h
    obtain ⟨es', w2, h2, h⟩ := h
    cases h
    obtain ⟨h3, h4⟩ := createMany_refs h1
    obtain ⟨h5, h6⟩ := ih h2
    have hl : es.length = c.toNat := by rw [h3, List.length_range']
    rw [h4] at h5 h6
    refine ⟨?_, by rw [h6, List.length_append, hl]; omega⟩
    rw [List.length_append, hl, ← List.range'_append_1, ← h5, ← h3]

end Stoq
