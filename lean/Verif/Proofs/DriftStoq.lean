import Verif.Proofs.DriftHamiltonian
import Verif.Proofs.DriftRav
import Verif.Props.DriftRav
import Verif.Props.HamiltonianRav

/-! # Random evolutions with the clean-up of small matrix entries and rounding -/

namespace Stoq

open World Matrix Compiler

variable {n : ℕ} {Ms : List (Matrix (Fin (2 ^ n)) (Fin (2 ^ n)) ℂ)} {H : Hamiltonian} {τ : Arith} {δ : ℝ}

/-! ## The primitives -/

theorem family_near (hn : 1 ≤ n) (hτ : τ.Accurate (2 ^ n) δ) (hlim : 6 * 2 ^ n * δ ≤ driftLimit) (hH : H.Of Ms) {m : ℝ} (hm : 0 ≤ m)
    (hmt : m * (Ms.map maxAbsEigenvalue).sum ≤ 100)
    {b : Bool} {s : List ℕ} (hs : s ∈ H.termSubsets b) :
    (∃ p, (do
      let pu ← ParamDefinitions.timeEvolution τ (H.subsetMatrix s) (-m) m (Hamiltonian.subsetSuffix s)
      Primitive.new (.inr pu) (some [H.applyTo])) = .ok p) ∧
    (H.subsetPrimitive τ m s).Nearly n δ (6 * 2 ^ n * δ) ∧
    ∀ t, -m ≤ t ∧ t ≤ m → ∃ u,
      (evolutionFamily τ (H.subsetMatrix s) (-m) m (Hamiltonian.subsetSuffix s)).asUnitary τ [t] = .ok u ∧
      EntryVal.new u ((List.range n).map Int.ofNat) = .ok ⟨u, List.range n⟩ ∧
      EvolvesNear n (6 * 2 ^ n * δ) (Hamiltonian.subsetSuffix s) (subsetSum Ms s) t ⟨u, List.range n⟩ := by
  obtain ⟨h1, h2⟩ := hH.subset (hH.subset_lt hs).2
  obtain ⟨pu, h3, h4, h5⟩ := C62_parameterized_evolution hτ hlim h1 h2 (show -m ≤ m by linarith)
    (by rw [abs_neg]; exact hH.reach (by rwa [abs_of_nonneg hm]) le_rfl (hH.norm_subset hs))
    (hH.reach (by rwa [abs_of_nonneg hm]) le_rfl (hH.norm_subset hs))
    (Hamiltonian.subsetSuffix s)
  obtain ⟨-, rfl⟩ := param_evolution_eq h3
  refine ⟨?_, ?_, fun t ht => ?_⟩
  · rw [h3, ok_bind]
    refine ⟨H.subsetPrimitive τ m s, ?_⟩
    unfold Primitive.new Hamiltonian.subsetPrimitive
    rw [hH.applyTo]
    simp only
    rw [assertE_of, ok_bind, assertE_of, ok_bind, raiseUnless_of, ok_bind, assertE_of, ok_bind]
    · rfl
    · simp
    · simp
      omega
    · simp only [List.mem_singleton, forall_eq, List.length_map, List.length_range, Primitive.getDimension]
      exact h4.dim.symm
    · simp only [List.mem_singleton, forall_eq]
      exact List.nodup_range.map Int.ofNat_injective
  · refine C62_primitive h4 le_rfl hn le_rfl ?_
    rintro ls ⟨⟩
    rw [hH.applyTo]
    simp only [List.mem_singleton, forall_eq]
    refine ⟨List.nodup_range.map Int.ofNat_injective, by simp, ?_⟩
    simp
  · obtain ⟨u, e1, e2, e3, e4, e5⟩ := h4.asUnitary [t] ((h5 t).2.mpr ht)
    exact ⟨u, e1, entry_new_ok (by intro h; have := congrArg List.length h; simp at this; omega) List.nodup_range
      (by rw [e2.dim, List.length_range]), rfl, e2, e3, e4, e5⟩

theorem primitives_near (hn : 1 ≤ n) (hτ : τ.Accurate (2 ^ n) δ) (hlim : 6 * 2 ^ n * δ ≤ driftLimit) (hH : H.Of Ms) {m : ℝ}
    (hm : 0 ≤ m)
    (hmt : m * (Ms.map maxAbsEigenvalue).sum ≤ 100) (b : Bool) : ∃ prims, H.getUnitaryPrimitives τ m b = .ok prims ∧ prims ≠ [] ∧
      ∀ p ∈ prims, p.Nearly n δ (6 * 2 ^ n * δ) := by
  obtain ⟨prims, hp⟩ := mapM_ok (fun s hs => (family_near hn hτ hlim hH hm hmt (b := b) hs).1)
  refine ⟨prims, hp, ?_, ?_⟩
  · rw [primitives_eq hp]
    intro h
    have := hH.subsets_pos b
    rw [List.map_eq_nil_iff.mp h] at this
    exact lt_irrefl _ this
  · rw [primitives_eq hp]
    intro p hp
    obtain ⟨s, hs, rfl⟩ := List.mem_map.mp hp
    exact (family_near hn hτ hlim hH hm hmt hs).2.1

/-! ## The ideal gates -/

/-- The label of a gate determines which evolution it is. -/
theorem exists_evolutions (n : ℕ) (Ms : List (Matrix (Fin (2 ^ n)) (Fin (2 ^ n)) ℂ)) :
    ∃ E : EntryVal → Matrix (Fin (2 ^ n)) (Fin (2 ^ n)) ℂ, ∀ ε s t v,
      EvolvesNear n ε (Hamiltonian.subsetSuffix s) (subsetSum Ms s) t v → E v = evolution (subsetSum Ms s) t := by
  classical
  refine ⟨fun v => if h : ∃ st : List ℕ × ℝ, v.unitary.operationName = "H" ++ Hamiltonian.subsetSuffix st.1 ∧
    v.unitary.parameterDict = [("t", (st.2, false))] then evolution (subsetSum Ms h.choose.1) h.choose.2 else 1,
    fun ε s t v hv => ?_⟩
  have h : ∃ st : List ℕ × ℝ, v.unitary.operationName = "H" ++ Hamiltonian.subsetSuffix st.1 ∧
    v.unitary.parameterDict = [("t", (st.2, false))] := ⟨(s, t), hv.name, hv.params⟩
  simp only
  rw [dif_pos h]
  obtain ⟨h1, h2⟩ := h.choose_spec
  replace h1 := hv.name.symm.trans h1
  replace h2 := hv.params.symm.trans h2
  have e1 : s = h.choose.1 := C50_labels (by
    have := congrArg String.toList h1
    rw [String.toList_append, String.toList_append] at this
    exact String.toList_inj.mp (List.append_cancel_left this))
  have e2 : t = h.choose.2 := by simpa using h2
  rw [← e1, ← e2]

/-- A gate that can be drawn is the evolution it is labelled with. -/
theorem StoqGate.near (hn : 1 ≤ n) (hτ : τ.Accurate (2 ^ n) δ) (hlim : 6 * 2 ^ n * δ ≤ driftLimit) (hH : H.Of Ms) {m : ℝ}
    (hm : 0 ≤ m)
    (hmt : m * (Ms.map maxAbsEigenvalue).sum ≤ 100) {b : Bool} {t : ℝ} {v : EntryVal} (h : StoqGate τ H b m t v) : ∃ s ∈ H.termSubsets b,
      EvolvesNear n (6 * 2 ^ n * δ) (Hamiltonian.subsetSuffix s) (subsetSum Ms s) t v := by
  obtain ⟨s, hs, h1, h2, h3, -, -, -, h4⟩ := h
  obtain ⟨u, h6, -, h7⟩ := (family_near hn hτ hlim hH hm hmt hs).2.2 t ⟨h1, h2⟩
  rw [h4] at h6
  cases h6
  exact ⟨s, hs, by rw [h3, hH.qubits], h7.near, h7.name, h7.params, h7.forward⟩

theorem StoqGate.ideal (hn : 1 ≤ n) (hτ : τ.Accurate (2 ^ n) δ) (hlim : 6 * 2 ^ n * δ ≤ driftLimit) (hH : H.Of Ms) {m : ℝ}
    (hm : 0 ≤ m)
    (hmt : m * (Ms.map maxAbsEigenvalue).sum ≤ 100) {b : Bool} {t : ℝ} {v : EntryVal} (h : StoqGate τ H b m t v)
    {E : EntryVal → Matrix (Fin (2 ^ n)) (Fin (2 ^ n)) ℂ} (hE : ∀ ε s t v,
      EvolvesNear n ε (Hamiltonian.subsetSuffix s) (subsetSum Ms s) t v → E v = evolution (subsetSum Ms s) t) :
    (Gate.full n (E v)).Ok n ∧ v.Realises (Gate.full n (E v)) (6 * 2 ^ n * δ) := by
  obtain ⟨s, hs, hv⟩ := h.near hn hτ hlim hH hm hmt
  rw [hE _ _ _ _ hv]
  exact ⟨Gate.full_ok hn (evolution_unitary (hH.subset (hH.subset_lt hs).2).2 t), hv.realises⟩

theorem idealFor_evolutions (hn : 1 ≤ n) (hτ : τ.Accurate (2 ^ n) δ) (hlim : 6 * 2 ^ n * δ ≤ driftLimit) (hH : H.Of Ms) {m : ℝ}
    (hm : 0 ≤ m)
    (hmt : m * (Ms.map maxAbsEigenvalue).sum ≤ 100) {b : Bool} {prims : List Primitive} (hp : H.getUnitaryPrimitives τ m b = .ok prims)
    {E : EntryVal → Matrix (Fin (2 ^ n)) (Fin (2 ^ n)) ℂ} (hE : ∀ ε s t v,
      EvolvesNear n ε (Hamiltonian.subsetSuffix s) (subsetSum Ms s) t v → E v = evolution (subsetSum Ms s) t) :
    IdealFor τ n prims (6 * 2 ^ n * δ) (fun v => Gate.full n (E v)) := by
  intro p hpm v hv h
  rw [primitives_eq hp] at hpm
  obtain ⟨s, hs, rfl⟩ := List.mem_map.mp hpm
  obtain ⟨⟨values, -, -, h3⟩, h2⟩ := h
  have h8 : v.applyTo.map Int.ofNat ∈ [H.applyTo] := h2
  obtain ⟨t, -, h⟩ := stoqGate_of_family hs h3 (map_ofNat_range (List.mem_singleton.mp h8))
  exact h.ideal hn hτ hlim hH hm hmt hE

theorem idealCost_full (T : Matrix (Fin (2 ^ n)) (Fin (2 ^ n)) ℂ) (E : EntryVal → Matrix (Fin (2 ^ n)) (Fin (2 ^ n)) ℂ) :
    Metropolis.idealCost n T (fun v => Gate.full n (E v)) = fun g => 1 - overlap T (g.map E).reverse.prod := by
  funext g
  rw [Metropolis.idealCost, ← gateProduct_full, List.map_map]
  rfl

/-! ## Fewer steps -/

theorem newCompile_early {D : ℕ} {prims : List Primitive} {arr : Bool} {probs : Option (List ℝ)} {p : ℝ}
    {threshold : Option ℝ} {k m : ℤ} (hkm : k ≤ m) {target : Unitary} {w w' : World} {R : CompilerResult}
    (h : newCompile τ D prims arr probs p threshold k target w = (.ok R, w')) (hlt : (R.costByStep.length : ℤ) < k) :
    newCompile τ D prims arr probs p threshold m target w = (.ok R, w') := by
  unfold newCompile at h ⊢
  rw [PyM.bind_eq_ok_iff] at h
  obtain ⟨C, w1, h1, h⟩ := h
  rw [PyM.bind_of_ok h1]
  exact C32_compile_early hkm h hlt

theorem newCompile_take {D : ℕ} {prims : List Primitive} {arr : Bool} {probs : Option (List ℝ)} {p : ℝ}
    {threshold : Option ℝ} {k m : ℤ} (hkm : k ≤ m) {target : Unitary} {w w' : World} {R : CompilerResult}
    (h : newCompile τ D prims arr probs p threshold m target w = (.ok R, w')) :
    ∃ w'', newCompile τ D prims arr probs p threshold k target w = (.ok ⟨R.sequence, R.costByStep.take k.toNat⟩, w'') := by
  unfold newCompile at h ⊢
  rw [PyM.bind_eq_ok_iff] at h
  obtain ⟨C, w1, h1, h⟩ := h
  rw [PyM.bind_of_ok h1]
  exact C32_compile_prefix hkm h

theorem ravWith_early {D : ℕ} {fill : ℕ → PyM World Unit} {skip : Prop} {comp comp' : Unitary → PyM World CompilerResult}
    {k : ℕ} (hc : ∀ target w R w', comp target w = (.ok R, w') → R.costByStep.length < k → comp' target w = (.ok R, w'))
    {w w' : World} {R : CompilerResult} (h : ravWith τ D fill skip comp w = (.ok R, w'))
    (hlt : R.costByStep.length < k) : ravWith τ D fill skip comp' w = (.ok R, w') := by
  unfold ravWith at h ⊢
  rw [PyM.bind_eq_ok_iff] at h
  obtain ⟨s, w1, h1, h⟩ := h
  rw [PyM.bind_eq_ok_iff] at h
  obtain ⟨_, w2, h2, h⟩ := h
  rw [PyM.bind_of_ok h1, PyM.bind_of_ok h2]
  by_cases hs : skip
  · rw [if_pos hs] at h ⊢
    exact h
  rw [if_neg hs] at h ⊢
  simp only [PyM.bind_eq_ok_iff] at h
  obtain ⟨p, w3, h3, target, w4, h4, R0, w5, h5, comb, w6, h6, h7⟩ := h
  cases h7
  rw [PyM.bind_of_ok h3, PyM.bind_of_ok h4, PyM.bind_of_ok (hc _ _ _ _ h5 hlt), PyM.bind_of_ok h6]
  rfl

theorem ravWith_take {D : ℕ} {fill : ℕ → PyM World Unit} {skip : Prop} {comp comp' : Unitary → PyM World CompilerResult}
    {k : ℕ} (hc : ∀ target w R w', comp' target w = (.ok R, w') →
      ∃ w'', comp target w = (.ok ⟨R.sequence, R.costByStep.take k⟩, w''))
    {w w' w'' : World} {R R' : CompilerResult} (h : ravWith τ D fill skip comp w = (.ok R, w'))
    (h' : ravWith τ D fill skip comp' w = (.ok R', w'')) : R'.costByStep.take k = R.costByStep := by
  unfold ravWith at h h'
  rw [PyM.bind_eq_ok_iff] at h
  obtain ⟨s, w1, h1, h⟩ := h
  rw [PyM.bind_eq_ok_iff] at h
  obtain ⟨_, w2, h2, h⟩ := h
  rw [PyM.bind_of_ok h1, PyM.bind_of_ok h2] at h'
  by_cases hs : skip
  · rw [if_pos hs] at h h'
    cases h
    cases h'
    simp
  rw [if_neg hs] at h h'
  simp only [PyM.bind_eq_ok_iff] at h
  obtain ⟨p, w3, h3, target, w4, h4, R0, w5, h5, comb, w6, h6, h7⟩ := h
  cases h7
  rw [PyM.bind_of_ok h3, PyM.bind_of_ok h4] at h'
  simp only [PyM.bind_eq_ok_iff] at h'
  obtain ⟨R1, w7, g5, comb', w8, g6, g7⟩ := h'
  cases g7
  obtain ⟨w9, h8⟩ := hc _ _ _ _ g5
  rw [h5] at h8
  cases h8
  rfl

/-! ## The random part -/

theorem ravLoop_near {ε : ℝ} {ι : EntryVal → Gate} {prims : List Primitive} (hG : ∀ v t, RavGate τ prims H.applyTo t v →
      (ι v).Ok n ∧ v.Realises (ι v) ε) (m time : ℝ) (fuel : ℕ) (total : ℝ) :
    FillNear n τ δ ε ι (fun s => H.ravLoop τ prims m time s fuel total)
      (Rav.evolutions (Rav.evolveGate τ prims H.applyTo) m time fuel total) := by
  induction fuel generalizing total with
  | zero =>
    unfold Rav.evolutions Hamiltonian.ravLoop
    by_cases h : total < time
    · simp only [if_pos h]; exact FillNear.raise _
    · simp only [if_neg h]; exact FillNear.nil
  | succ fuel ih =>
    unfold Rav.evolutions Hamiltonian.ravLoop
    by_cases h : total < time
    swap
    · simp only [if_neg h]; exact FillNear.nil
    simp only [if_pos h]
    unfold Hamiltonian.ravStep
    simp only [PyM.bind_assoc', signedTime_eq]
    refine FillNear.withRng fun u _ _ _ => FillNear.withRng fun v _ _ _ => ?_
    have := FillNear.block (ravGate_mk (τ := τ) (prims := prims) (qubits := H.applyTo) (Rav.signedTime m u v))
      (fun v ⟨t, hv⟩ => hG v t hv) (ih (total + |Rav.signedTime m u v|))
    simpa only [PyM.bind_assoc', PyM.pure_bind', Verification.appendAll, List.singleton_append] using this

end Stoq
