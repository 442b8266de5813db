import Verif.Proofs.Reach
import Verif.Props.Draws
import Verif.Props.CompileExamples

/-!
# C55: the search is complete: every sequence of admissible gates can be found
-/

namespace Stoq

open World Compiler

/-- A gate that the compiler may draw: an instance of a primitive with parameter values in their ranges (the upper end
excluded, as in numpy) and with allowed qubits. -/
def Drawable (D : ℕ) (prims : List Primitive) (v : EntryVal) : Prop :=
  ∃ p ∈ prims,
    (match p.unitary with
      | .inl u0 => v.unitary = u0
      | .inr pu => ∃ values : List ℝ, values.length = pu.parameters.length ∧
        (∀ qv ∈ pu.parameters.zip values, qv.1.minValue ≤ qv.2 ∧
          (qv.2 < qv.1.maxValue ∨ qv.1.maxValue = qv.1.minValue ∧ qv.2 = qv.1.minValue)) ∧
        pu.asUnitary 0 values = .ok v.unitary) ∧
    (match p.allowedApplyTo with
      | some lists => v.applyTo.map Int.ofNat ∈ lists
      | none => ∀ q ∈ v.applyTo, q < intLog2 D) ∧
    v.applyTo.Nodup ∧ 2 ^ v.applyTo.length = v.unitary.getDimension ∧ v.applyTo ≠ []

theorem Drawable.yields {D : ℕ} {prims : List Primitive} {v : EntryVal} (h : Drawable D prims v) :
    ∃ us ns, Rng.InRange ns ∧ Rng.Yields (createRandomEntryVal 0 D prims none) us ns v := by
  obtain ⟨p, hp, h1, h2, h3, h4, h5⟩ := h
  exact C53_reachable hp h1 h2 h3 h4 h5

/-- C55: take any list of admissible gates no proper prefix of which is good enough.  There are random outcomes (with
positive probability of each integer draw) for which `compile`, in any session, with exactly that many steps — or with
more, if the list is good enough — returns exactly this list. -/
theorem C55_every_circuit {C : Compiler} {n : ℕ} (hD : C.dimension = 2 ^ n) (hprims : ∀ p ∈ C.primitives, p.Valid n)
    (hT : C.Truthy) (hpr : C.probabilities = none) (h0 : 0 < C.appendProbability) (h1 : C.appendProbability ≤ 1)
    {target : Unitary} (ht : target.Exact (2 ^ n)) {gates : List EntryVal}
    (hg : ∀ v ∈ gates, Drawable C.dimension C.primitives v) {threshold : Option ℝ} {m : ℤ}
    (hfar : ∀ j < gates.length, ¬ Metropolis.GoodEnough threshold
      (Metropolis.cost n (target.matrix.toMatrix (2 ^ n)) (gates.take j)))
    (hm : (gates.length : ℤ) = m ∨ (gates.length : ℤ) ≤ m ∧
      Metropolis.GoodEnough threshold (Metropolis.cost n (target.matrix.toMatrix (2 ^ n)) gates)) :
    ∃ us ns, Rng.InRange ns ∧ ∀ (c : Client) (Cs : List Compiler), Session 0 c Cs → C ∈ Cs →
      (∀ x ∈ c.world.entries, x.toVal.Exact) → c.world.rng.Delivers us ns →
      ∃ R w' v, C.compile 0 target threshold m c.world = (.ok R, w') ∧ w'.view R.sequence = some v ∧
        v.entries = gates ∧ R.costByStep.length = gates.length := by
  have hflat : ∀ l : List EntryVal, (l.map fun v => [v]).flatten = l := fun l => by
    induction l with
    | nil => rfl
    | cons a l ih => simp [ih]
  obtain ⟨us, ns, hr, hrun⟩ := Metropolis.run_yields (n := n) (T := target.matrix.toMatrix (2 ^ n))
    (threshold := threshold) (rate := C.annealingRate) (cap := C.maxBeta) (proposal := C.proposal 0)
    (gates.map fun v => [v]) m.toNat (by
      intro vs hvs
      obtain ⟨v, hv, rfl⟩ := List.mem_map.mp hvs
      obtain ⟨us, ns, hr, hy⟩ := (hg v hv).yields
      refine ⟨_, ns, hr, fun g => Metropolis.propose_yields h0 h1 (us := us) ?_ 1 g⟩
      unfold Metropolis.one
      rw [hpr]
      exact hy.map _) [] (by
      intro j hj
      rw [List.length_map] at hj
      rw [List.nil_append, ← List.map_take, hflat]
      exact hfar j hj) (by
      rw [List.length_map, List.nil_append, hflat]
      rcases hm with hm | ⟨hm, hgood⟩
      · left; omega
      · right; exact ⟨by omega, hgood⟩)
  refine ⟨us, ns, hr, fun c Cs hs hC hex hdel => ?_⟩
  obtain ⟨b, hb, -⟩ := hs.ok.2.alive C hC
  have hx := (compile_post (target := target) (threshold := threshold) (m := m) hT hs.ok.1.wf hb).exact n rfl hD hex
    (fun v hv => generated_good hprims (by rw [← hD]; exact hv)) ht
  obtain ⟨tr, b', h2, h3, h4⟩ := hrun b
  rw [h2 _ hdel] at hx
  obtain ⟨g1, -, -, o, g2, g3, -⟩ := hx
  refine ⟨_, _, _, Prod.ext g1 rfl, view_eq_some.mpr ⟨o, g2, rfl⟩, ?_, ?_⟩
  · simp only [viewOf]
    rw [g3, h4, List.nil_append, hflat]
  · simp [h3]

/-- C55: if some list of at most `m` admissible gates is good enough, then for some random outcomes `compile` with `m`
steps ends with a sequence that is good enough. -/
theorem C55_can_succeed {C : Compiler} {n : ℕ} (hD : C.dimension = 2 ^ n) (hprims : ∀ p ∈ C.primitives, p.Valid n)
    (hT : C.Truthy) (hpr : C.probabilities = none) (h0 : 0 < C.appendProbability) (h1 : C.appendProbability ≤ 1)
    {target : Unitary} (ht : target.Exact (2 ^ n)) {gates : List EntryVal}
    (hg : ∀ v ∈ gates, Drawable C.dimension C.primitives v) {threshold : Option ℝ} {m : ℤ}
    (hgood : Metropolis.GoodEnough threshold (Metropolis.cost n (target.matrix.toMatrix (2 ^ n)) gates))
    (hm : (gates.length : ℤ) ≤ m) :
    ∃ us ns, Rng.InRange ns ∧ ∀ (c : Client) (Cs : List Compiler), Session 0 c Cs → C ∈ Cs →
      (∀ x ∈ c.world.entries, x.toVal.Exact) → c.world.rng.Delivers us ns →
      ∃ R w' v, C.compile 0 target threshold m c.world = (.ok R, w') ∧ w'.view R.sequence = some v ∧
        v.entries <+: gates ∧
        Metropolis.GoodEnough threshold (Metropolis.cost n (target.matrix.toMatrix (2 ^ n)) v.entries) := by
  classical
  have hex : ∃ j, Metropolis.GoodEnough threshold
      (Metropolis.cost n (target.matrix.toMatrix (2 ^ n)) (gates.take j)) := ⟨gates.length, by simpa using hgood⟩
  have hle : Nat.find hex ≤ gates.length := Nat.find_min' hex (by simpa using hgood)
  have hlen : (gates.take (Nat.find hex)).length = Nat.find hex := by rw [List.length_take]; omega
  obtain ⟨us, ns, hr, h⟩ := C55_every_circuit hD hprims hT hpr h0 h1 ht (gates := gates.take (Nat.find hex))
    (fun v hv => hg v (List.mem_of_mem_take hv)) (threshold := threshold) (m := m)
    (fun j hj => by
      rw [hlen] at hj
      rw [List.take_take, min_eq_left hj.le]
      exact Nat.find_min hex hj)
    (Or.inr ⟨by rw [hlen]; omega, Nat.find_spec hex⟩)
  refine ⟨us, ns, hr, fun c Cs hs hC hE hd => ?_⟩
  obtain ⟨R, w', v, g1, g2, g3, -⟩ := h c Cs hs hC hE hd
  exact ⟨R, w', v, g1, g2, by rw [g3]; exact List.take_prefix _ _, by rw [g3]; exact Nat.find_spec hex⟩

/-- C55 for `compile_layered`: any sequence of layers in which every layer is a rearrangement of the requested numbers
of admissible instances of the requested primitives. -/
theorem C55_every_layered_circuit {C : Compiler} {n : ℕ} (hD : C.dimension = 2 ^ n)
    {counts : List (Primitive × ℤ)} (hprims : ∀ pc ∈ counts, pc.1.Valid n)
    (h0 : 0 < C.appendProbability) (h1 : C.appendProbability ≤ 1) {target : Unitary} (ht : target.Exact (2 ^ n))
    {layers : List (List EntryVal)}
    (hl : ∀ l ∈ layers, ∃ groups : List (List EntryVal), l.Perm groups.flatten ∧
      List.Forall₂ (fun pc g => g.length = pc.2.toNat ∧ ∀ v ∈ g, Drawable C.dimension [pc.1] v) counts groups)
    {threshold : Option ℝ} {m : ℤ}
    (hfar : ∀ j < layers.length, ¬ Metropolis.GoodEnough threshold
      (Metropolis.cost n (target.matrix.toMatrix (2 ^ n)) (layers.take j).flatten))
    (hm : (layers.length : ℤ) = m ∨ (layers.length : ℤ) ≤ m ∧
      Metropolis.GoodEnough threshold (Metropolis.cost n (target.matrix.toMatrix (2 ^ n)) layers.flatten)) :
    ∃ us ns, Rng.InRange ns ∧ ∀ (c : Client) (Cs : List Compiler), Session 0 c Cs → C ∈ Cs →
      (∀ x ∈ c.world.entries, x.toVal.Exact) → c.world.rng.Delivers us ns →
      ∃ R w' v, C.compileLayered 0 target counts threshold m c.world = (.ok R, w') ∧ w'.view R.sequence = some v ∧
        v.entries = layers.flatten ∧ R.costByStep.length = layers.length := by
  obtain ⟨us, ns, hr, hrun⟩ := Metropolis.run_yields (n := n) (T := target.matrix.toMatrix (2 ^ n))
    (threshold := threshold) (rate := C.annealingRate) (cap := C.maxBeta) (proposal := C.layeredProposal 0 counts)
    layers m.toNat (by
      intro l hl'
      obtain ⟨groups, hp, hf⟩ := hl l hl'
      obtain ⟨us, ns, hr, hy⟩ := Metropolis.layer_yields
        (gen := fun p => createRandomEntryVal 0 C.dimension [p] none) (counts := counts) (groups := groups)
        (hf.imp fun pc g h => ⟨h.1, fun v hv => (h.2 v hv).yields⟩) hp
      exact ⟨_, ns, hr, fun g => Metropolis.propose_yields h0 h1 hy _ g⟩) [] (by simpa using hfar) (by
      rw [List.nil_append]
      rcases hm with hm | ⟨hm, hgood⟩
      · left; omega
      · right; exact ⟨by omega, hgood⟩)
  refine ⟨us, ns, hr, fun c Cs hs hC hex hdel => ?_⟩
  obtain ⟨b, hb, -⟩ := hs.ok.2.alive C hC
  have hx := (compileLayered_post (target := target) (counts := counts) (threshold := threshold) (m := m)
    hs.ok.1.wf hb).exact n rfl hD hex (fun v hv => generatedLayer_good hprims (by rw [← hD]; exact hv)) ht
  obtain ⟨tr, b', h2, h3, h4⟩ := hrun b
  rw [h2 _ hdel] at hx
  obtain ⟨g1, -, -, o, g2, g3, -⟩ := hx
  refine ⟨_, _, _, Prod.ext g1 rfl, view_eq_some.mpr ⟨o, g2, rfl⟩, ?_, ?_⟩
  · simp only [viewOf]
    rw [g3, h4, List.nil_append]
  · simp [h3]

/-- A gate of the example compiler. -/
theorem zGate_drawable : Drawable 2 [zPrim] zGate :=
  ⟨zPrim, by simp, rfl, by simp [zPrim, zGate], by simp [zGate], rfl, by simp [zGate]⟩

/-- The target `diag(-i, i)` with the primitive `diag(-i, i)`: one gate suffices and can be found within seven steps. -/
example (p rate : ℝ) (h0 : 0 < p) (h1 : p ≤ 1) :
    ∃ us ns, Rng.InRange ns ∧ ∀ rng : Rng, rng.Delivers us ns →
      ∃ R w' v, (zCompiler p rate 0).compile 0 (tinyPhase (Real.pi / 2)) none 7 (zClient rng).world = (.ok R, w') ∧
        w'.view R.sequence = some v ∧ v.entries <+: [zGate] ∧ Metropolis.GoodEnough none
          (Metropolis.cost 1 ((tinyPhase (Real.pi / 2)).matrix.toMatrix (2 ^ 1)) v.entries) := by
  have hc : circuit 1 [zGate] = (tinyPhase (Real.pi / 2)).matrix.toMatrix 2 := by
    unfold circuit circuit EntryVal.op
    rw [one_mul]
    ext i j
    fin_cases i <;> fin_cases j <;> simp [embed, AgreeOff, gather, qubit, zGate]
  obtain ⟨us, ns, hr, h⟩ := C55_can_succeed (C := zCompiler p rate 0) (n := 1) rfl (zCompiler_prims p rate 0)
    (zCompiler_truthy p rate 0) rfl h0 h1 (target := tinyPhase (Real.pi / 2)) (tinyPhase_exact _) (gates := [zGate])
    (by intro v hv; rw [List.mem_singleton.mp hv]; exact zGate_drawable) (threshold := none) (m := 7)
    (by
      unfold Metropolis.cost
      rw [hc]
      have : overlap ((tinyPhase (Real.pi / 2)).matrix.toMatrix (2 ^ 1))
          ((tinyPhase (Real.pi / 2)).matrix.toMatrix 2) = 1 :=
        overlap_self (by norm_num) (tinyPhase_exact _).unitary
      rw [this]
      simp [Metropolis.GoodEnough]) (by simp)
  exact ⟨us, ns, hr, fun rng hd => h (zClient rng) _ (zSession 0 rng p rate) (by simp) (zClient_entries rng) hd⟩

end Stoq
