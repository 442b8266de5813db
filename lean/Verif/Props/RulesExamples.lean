import Verif.Props.CompileExamples

/-!
# Concrete sessions that meet the hypotheses of C34, C36, C38, C39 and C41
-/

namespace Stoq

open World Compiler Matrix

/-- Five steps of `compile` with any append probability between 0 and 1 succeed. -/
theorem z_five (rng : Rng) {p : ℝ} (h0 : 0 ≤ p) (h1 : p ≤ 1) :
    ∃ R w', (zCompiler p 1 0).compile 0 idTarget (some 2) 5 (zClient rng).world = (.ok R, w') :=
  C33_compile_never_raises (zSession 0 rng p 1) (C := zCompiler p 1 0) (by simp) (zClient_entries rng)
    (n := 1) rfl (zCompiler_prims _ _ _) (zCompiler_truthy _ _ _) (zCompiler_choice _ _ _)
    ⟨h0, h1⟩ idTarget_exact (some 2) 5

/-- C34, C36: after at most five steps every gate comes from the primitive, and the annealing value is the number of
steps. -/
example (rng : Rng) : ∃ R w' v, (zCompiler (1 / 2) 1 0).compile 0 idTarget (some 2) 5 (zClient rng).world = (.ok R, w') ∧
    w'.view R.sequence = some v ∧ (∀ e ∈ v.entries, FromPrimitive 0 (intLog2 2) zPrim e) ∧
    w'.annealing (zCompiler (1 / 2) 1 0) = some (R.costByStep.length : ℝ) := by
  obtain ⟨R, w', h⟩ := z_five rng (p := 1 / 2) (by norm_num) (by norm_num)
  obtain ⟨v, hv, -, -, hp⟩ := C34_compile_provenance (zSession 0 rng (1 / 2) 1) (by simp) h
  have hb := C36_compile_schedule (zSession 0 rng (1 / 2) 1) (C := zCompiler (1 / 2) 1 0) (by simp)
    (by simp [zCompiler]) (b := 0) rfl h
  have hl := (C30_compile_stops (zSession 0 rng (1 / 2) 1) (by simp) h).1
  refine ⟨R, w', v, h, hv, fun e he => ?_, ?_⟩
  · obtain ⟨-, p, hm, hf⟩ := hp e he
    obtain rfl := List.mem_singleton.mp hm
    exact hf
  · rw [hb]
    have h5 : (R.costByStep.length : ℝ) ≤ 5 := by
      have : (R.costByStep.length : ℤ) ≤ 5 := by simpa using hl
      exact_mod_cast this
    simp only [zCompiler, zero_add, mul_one]
    rw [min_eq_left (by linarith [show ((2 : ℝ) ^ 2) ^ 2 = 16 by norm_num])]

/-- C38: with a second primitive that can be applied nowhere, the first one is used; with probabilities given for the
two the call fails. -/
example (w : World) (u : Unitary) :
    (∀ r w', createRandomSequenceEntry 0 2 [zPrim, ⟨.inl u, some []⟩] none w = (.ok r, w') →
      ∃ x, w'.entries[r]? = some x ∧ FromPrimitive 0 (intLog2 2) zPrim x.toVal) ∧
    createRandomSequenceEntry 0 2 [zPrim, ⟨.inl u, some []⟩] (some [1 / 2, 1 / 2]) w = (.error .valueError, w) := by
  refine ⟨fun r w' h => ?_, C38_probabilities_fail 0 2 rfl (p := ⟨.inl u, some []⟩) (by simp) rfl w⟩
  obtain ⟨x, hx, p, hp, hn, hf⟩ := C38_chosen_usable h
  rcases List.mem_pair.mp hp with rfl | rfl
  · exact ⟨x, hx, hf⟩
  · exact absurd rfl hn

/-- C39: an append probability of 2 makes `compile` raise ValueError. -/
example (rng : Rng) :
    ((zCompiler 2 1 0).compile 0 idTarget (some 2) 5 (zClient rng).world).1 = .error .valueError :=
  C39_outside_compile_raises (zSession 0 rng 2 1) (by simp) (zClient_entries rng) (n := 1) rfl (zCompiler_prims _ _ _)
    (zCompiler_truthy _ _ _) idTarget_exact (by norm_num [zCompiler])
    (by rw [idTarget_matrix, cost_nil]; norm_num [Metropolis.GoodEnough]) (by norm_num)

/-- C39: with an append probability of 0 five steps give no gates; with 1 the first two steps' gates stay. -/
example (rng : Rng) :
    (∃ R w' v, (zCompiler 0 1 0).compile 0 idTarget (some 2) 5 (zClient rng).world = (.ok R, w') ∧
      w'.view R.sequence = some v ∧ v.entries = []) ∧
    ∃ R w' v R0 w0 v0, (zCompiler 1 1 0).compile 0 idTarget (some 2) 5 (zClient rng).world = (.ok R, w') ∧
      (zCompiler 1 1 0).compile 0 idTarget (some 2) 2 (zClient rng).world = (.ok R0, w0) ∧
      w0.view R0.sequence = some v0 ∧ w'.view R.sequence = some v ∧ v0.entries <:+: v.entries := by
  constructor
  · obtain ⟨R, w', h⟩ := z_five rng (p := 0) le_rfl (by norm_num)
    obtain ⟨v, hv, he⟩ := C39_zero_gives_empty (zSession 0 rng 0 1) (by simp) rfl h
    exact ⟨R, w', v, h, hv, he⟩
  · obtain ⟨R, w', h⟩ := z_five rng (p := 1) (by norm_num) le_rfl
    obtain ⟨R0, w0, v0, v, h1, h2, h3, h4⟩ := C39_one_never_removes (zSession 0 rng 1 1) (by simp)
      (zClient_entries rng) (n := 1) rfl (zCompiler_prims _ _ _) (zCompiler_truthy _ _ _) idTarget_exact rfl
      (j := 2) (by norm_num) h
    exact ⟨R, w', v, R0, w0, v0, h, h1, h2, h3, h4⟩

/-- C41: a layer of two gates of the primitive. -/
example (w : World) : ∃ rs w', createRandomLayer 0 2 [(zPrim, 2)] w = (.ok rs, w') ∧ rs.length = 2 ∧
    IsLayer 0 (intLog2 2) [(zPrim, 2)] (valsOf w'.entries rs) := by
  have hl : ∃ vs r, Metropolis.layer (fun p => createRandomEntryVal 0 2 [p] none) [(zPrim, 2)] w.rng = (.ok vs, r) := by
    have hb : ∃ r, Metropolis.block (fun p => createRandomEntryVal 0 2 [p] none) [(zPrim, 2)] w.rng =
        (.ok [zGate, zGate], r) := by
      refine ⟨{ w.rng with npos := w.rng.npos + 4 }, ?_⟩
      have h0 : Metropolis.many (createRandomEntryVal 0 2 [zPrim] none) 1 { w.rng with npos := w.rng.npos + 2 } =
          (.ok [zGate], { w.rng with npos := w.rng.npos + 4 }) := by
        rw [Metropolis.many, PyM.bind_of_ok (zPrim_gen 0 2 _)]; rfl
      have h2 : Metropolis.many (createRandomEntryVal 0 2 [zPrim] none) (2 : ℤ).toNat w.rng =
          (.ok [zGate, zGate], { w.rng with npos := w.rng.npos + 4 }) := by
        show Metropolis.many _ 2 _ = _
        rw [Metropolis.many, PyM.bind_of_ok (zPrim_gen 0 2 _), PyM.bind_of_ok h0]; rfl
      rw [Metropolis.block, PyM.bind_of_ok h2]; rfl
    obtain ⟨r, hb⟩ := hb
    unfold Metropolis.layer
    rw [PyM.bind_of_ok hb]
    exact ⟨_, _, rfl⟩
  obtain ⟨vs, r, hl⟩ := hl
  have hm := mk_layer (τ := 0) (D := 2) (counts := [(zPrim, 2)]) (G := fun _ => True) (fun _ _ _ _ _ _ => trivial) w
  unfold Wp at hm
  have hres := hm.res
  rw [hl] at hres
  obtain ⟨rs, h1, -⟩ := hres
  have h : createRandomLayer 0 2 [(zPrim, 2)] w = (.ok rs, (createRandomLayer 0 2 [(zPrim, 2)] w).2) := Prod.ext h1 rfl
  obtain ⟨-, h2, h3⟩ := C41_layer_counts h
  exact ⟨rs, _, h, h3, h2⟩

/-- C41: three gates in another order. -/
example : ∃ nat : ℕ → ℕ, ∀ unif, (Rng.shuffle [1, 2, 2] ⟨unif, nat, 0, 0⟩).1 = .ok [2, 1, 2] :=
  C41_every_order _ _ (List.Perm.swap _ _ _)

end Stoq
