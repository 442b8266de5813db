import Verif.Proofs.MeasurableWalk
import Verif.Proofs.HitsGates

/-! # Random gates depend measurably on the random numbers -/

namespace Stoq

open MeasureTheory Matrix Rng Compiler

variable {γ : Type} [MeasurableSpace γ] {n d k : ℕ}

theorem dbl_smul {c : ℂ} (hc : ‖c‖ = 1) (A : Matrix (Fin d) (Fin d) ℂ) : dbl (c • A) = dbl A := by
  funext i j k l
  unfold dbl
  rw [Matrix.smul_apply, Matrix.smul_apply, smul_eq_mul, smul_eq_mul, star_mul']
  have : c * star c = 1 := by
    rw [show star c = (starRingEnd ℂ) c from rfl, Complex.mul_conj, Complex.normSq_eq_norm_sq, hc]
    norm_num
  linear_combination (A i j * star (A k l)) * this

theorem norm_entry_le_one {A : Matrix (Fin d) (Fin d) ℂ} (h : A ∈ unitaryGroup (Fin d) ℂ) (i j : Fin d) : ‖A i j‖ ≤ 1 :=
  entry_norm_bound_of_unitary h i j

/-- Matrices with elements close up to a phase are close without their phases. -/
theorem dbl_close {A A' : Matrix (Fin d) (Fin d) ℂ} (hA : ∀ i j, ‖A i j‖ ≤ 1) (hA' : ∀ i j, ‖A' i j‖ ≤ 1) {c : ℂ} (hc : ‖c‖ = 1) {ε : ℝ}
    (h : ∀ i j, ‖A' i j - c * A i j‖ ≤ ε) (i j k l : Fin d) : ‖dbl A' i j k l - dbl A i j k l‖ ≤ 2 * ε := by
  rw [← dbl_smul hc A]
  unfold dbl
  rw [Matrix.smul_apply, Matrix.smul_apply, smul_eq_mul, smul_eq_mul]
  have e : A' i j * star (A' k l) - c * A i j * star (c * A k l) =
      (A' i j - c * A i j) * star (A' k l) + c * A i j * star (A' k l - c * A k l) := by
    rw [star_sub]; ring
  have hε : 0 ≤ ε := (norm_nonneg _).trans (h i j)
  rw [e]
  calc _ ≤ ‖(A' i j - c * A i j) * star (A' k l)‖ + ‖c * A i j * star (A' k l - c * A k l)‖ := norm_add_le _ _
    _ ≤ ε * 1 + 1 * ε := by
        rw [norm_mul, norm_mul, norm_star, norm_star, norm_mul, hc, one_mul]
        exact add_le_add (mul_le_mul (h i j) (hA' k l) (norm_nonneg _) hε) (mul_le_mul (hA i j) (h k l) (norm_nonneg _) zero_le_one)
    _ = 2 * ε := by ring

/-! ## The parameters -/

theorem randomValue_meas (p : Parameter) : Meas (fun x : ℝ => x) fun _ : γ => p.randomValue := by
  unfold Parameter.randomValue
  exact Meas.randomSample.bind fun g hg => Meas.pure ((hg.mul_const _).add_const _)

theorem randomParameterValues_meas : ∀ {γ : Type} [MeasurableSpace γ] (ps : List Parameter),
    Meas (listKey 0 fun x : ℝ => x) fun _ : γ => randomParameterValues ps
  | _, _, [] => Meas.pure measurable_const
  | γ, _, p :: ps => by
    unfold randomParameterValues
    refine (randomValue_meas p).bind fun v hv => (randomParameterValues_meas ps).bind fun vs hvs => Meas.pure ?_
    exact measurable_cons (v := fun c : (γ × Tape) × Tape => v c.1) (hv.comp measurable_fst) hvs

/-- A continuous gate depends measurably on its parameters. -/
theorem measurable_param {pu : ParamUnitary} (hd : pu.dimension = 2 ^ k)
    (hU : ∀ values, pu.Admits values → ∃ a, pu.parameterizedMatrix values = .ok a ∧
      a.toMatrix (2 ^ k) ∈ unitaryGroup (Fin (2 ^ k)) ℂ) (hc : pu.Continuous) {a : List ℝ → Arr}
    (ha : ∀ values, pu.Admits values → pu.parameterizedMatrix values = .ok (a values)) {g : γ → List ℝ}
    (hg : Measurable fun c => listKey 0 (fun x : ℝ => x) (g c)) (hQ : ∀ c, pu.Admits (g c)) :
    Measurable fun c => dbl ((a (g c)).toMatrix (2 ^ k)) := by
  let S : Set (Fin pu.parameters.length → ℝ) := {x | pu.Admits (List.ofFn x)}
  let F : S → Fin (2 ^ k) → Fin (2 ^ k) → Fin (2 ^ k) → Fin (2 ^ k) → ℂ := fun x => dbl ((a (List.ofFn x.1)).toMatrix (2 ^ k))
  have hu : ∀ vs, pu.Admits vs → ∀ i j, ‖(a vs).toMatrix (2 ^ k) i j‖ ≤ 1 := by
    intro vs hvs
    obtain ⟨b, h1, h2⟩ := hU vs hvs
    rw [ha vs hvs] at h1
    cases h1
    exact norm_entry_le_one h2
  have hF : Measurable F := by
    refine measurable_pi_iff.mpr fun i => measurable_pi_iff.mpr fun j => measurable_pi_iff.mpr fun k' =>
      measurable_pi_iff.mpr fun l => Continuous.measurable ?_
    rw [Metric.continuous_iff]
    intro x ε hε
    obtain ⟨η, hη, h⟩ := hc _ x.2 (ε / 4) (by positivity)
    refine ⟨η, hη, fun y hy => ?_⟩
    obtain ⟨c, hc1, hc2⟩ := h _ y.2 (by
      rw [List.forall₂_iff_get]
      refine ⟨by simp, fun m h1 h2 => ?_⟩
      have h1' : m < pu.parameters.length := by simpa using h1
      have := (dist_le_pi_dist y.1 x.1 ⟨m, h1'⟩).trans (le_of_lt hy)
      rw [Real.dist_eq] at this
      simpa using this) _ _ (ha _ x.2) (ha _ y.2)
    rw [dist_eq_norm]
    have := dbl_close (hu _ x.2) (hu _ y.2) hc1 (ε := ε / 4) (fun i j => hc2 i (by rw [hd]; exact i.2) j (by rw [hd]; exact j.2)) i j k' l
    exact lt_of_le_of_lt this (by linarith)
  have hG : Measurable fun c => (⟨fun i => (g c).getD i 0, by
      have e : List.ofFn (fun i : Fin pu.parameters.length => (g c).getD i 0) = g c := by
        refine List.ext_getElem (by simp [(hQ c).1]) fun i h1 h2 => ?_
        simp [List.getD_eq_getElem?_getD, List.getElem?_eq_getElem h2]
      change pu.Admits _
      rw [e]; exact hQ c⟩ : S) := by
    refine Measurable.subtype_mk (measurable_pi_iff.mpr fun i => ?_)
    have := (measurable_list.mp hg).2 i
    have e : (fun c => (g c).getD i 0) = fun c => ((g c)[(i : ℕ)]?).elim 0 fun x => x := by
      funext c
      rw [List.getD_eq_getElem?_getD]
      cases (g c)[(i : ℕ)]? <;> rfl
    rw [e]; exact this
  have := hF.comp hG
  have e : (fun c => dbl ((a (g c)).toMatrix (2 ^ k))) = fun c => dbl ((a (List.ofFn
      (fun i : Fin pu.parameters.length => (g c).getD i 0))).toMatrix (2 ^ k)) := by
    funext c
    congr 3
    refine List.ext_getElem (by simp [(hQ c).1]) fun i h1 h2 => ?_
    simp [List.getD_eq_getElem?_getD, List.getElem?_eq_getElem h1]
  rw [e]
  exact this

/-- The matrix of a unitary on `k` qubits up to its phase. -/
def unitaryKey (k : ℕ) (u : Unitary) := dbl (u.matrix.toMatrix (2 ^ k))

theorem pickUnitary_meas {p : Primitive} (hv : GateValid k p) (hc : p.Continuous) :
    Meas (unitaryKey k) fun _ : γ => pickUnitary 0 p := by
  unfold GateValid at hv
  unfold Primitive.Continuous at hc
  unfold pickUnitary
  rcases hu : p.unitary with u | pu
  · exact Meas.pure measurable_const
  · rw [hu] at hv hc
    obtain ⟨h1, h2, h3⟩ := hv
    have hmat : ∀ values, ∃ a : Arr, pu.Admits values → pu.parameterizedMatrix values = .ok a := by
      intro values
      by_cases hA : pu.Admits values
      · obtain ⟨a, ha, -⟩ := h3 values hA.1 hA.2
        exact ⟨a, fun _ => ha⟩
      · exact ⟨Classical.arbitrary Arr, fun h => absurd h hA⟩
    choose a ha using hmat
    have hgood : ∀ values, pu.Admits values → ∃ u, pu.asUnitary 0 values = .ok u ∧
        unitaryKey k u = dbl ((a values).toMatrix (2 ^ k)) := by
      intro values hA
      obtain ⟨b, h4, h5, h6, h7⟩ := h3 values hA.1 hA.2
      rw [ha values hA] at h4
      cases h4
      obtain ⟨u, h8, c, hc1, hc2⟩ := asUnitary_valid h1 hA (ha values hA) h5 h6 h7
      refine ⟨u, h8, ?_⟩
      unfold unitaryKey
      rw [hc2]
      exact dbl_smul hc1 _
    obtain ⟨vs0, -, -, h0⟩ := randomParameterValues_ok pu.parameters h2 (Rng.start (fun _ => ⟨0, by norm_num, by norm_num⟩, fun _ => 0))
    refine (randomParameterValues_meas pu.parameters).bind_of (Q := pu.Admits) (a₀ := vs0) ⟨h0.1, h0.2⟩
      (fun _ _ h => randomParameterValues_admits h2 h) fun g hQ hg => ?_
    choose u hu1 hu2 using fun c => hgood (g c) (hQ c)
    have := measurable_param h1 (fun values hA => by
      obtain ⟨b, h4, -, -, h7⟩ := h3 values hA.1 hA.2
      exact ⟨b, h4, h7⟩) hc ha hg hQ
    refine (Meas.pure (κ := unitaryKey k) (g := u) ?_).congr fun c => ?_
    · rw [show (fun c => unitaryKey k (u c)) = _ from funext hu2]
      exact this
    · rw [hu1]; rfl

/-! ## The qubits -/

theorem entryNew_meas {u : γ → Unitary} (hu : ∀ c, (u c).Exact (2 ^ k)) (hm : Measurable fun c => unitaryKey k (u c)) (qs : List ℤ) :
    Meas (gateKey n) fun c => PyM.lift (EntryVal.new (u c) qs) := by
  by_cases h : ∃ c0 v, EntryVal.new (u c0) qs = .ok v
  · obtain ⟨c0, v, h⟩ := h
    have key := fun c => (entryNew_congr (u' := u c) (by rw [(hu c).dim, (hu c0).dim]) h).2
    have hlen : v.applyTo.length = k := by
      obtain ⟨h3, h4⟩ := entryNew_ok h
      have := h3.dim
      rw [EntryVal.getDimension, h4, (hu c0).dim] at this
      exact (Nat.pow_right_injective (le_refl 2) this).symm
    refine (Meas.pure (κ := gateKey n) (g := fun c => ⟨u c, v.applyTo⟩) ?_).congr fun c => by rw [key]; rfl
    subst hlen
    rw [show (fun c => gateKey n ⟨u c, v.applyTo⟩) = fun c => dbl (embed n v.applyTo ((u c).matrix.toMatrix _)) from rfl,
      measurable_dbl]
    intro i j k' l
    unfold embed
    by_cases h1 : AgreeOff n v.applyTo i j
    · by_cases h2 : AgreeOff n v.applyTo k' l
      · simp only [h1, h2, if_true]
        exact measurable_dbl.mp hm _ _ _ _
      · simp only [h2, if_false, star_zero, mul_zero]
        exact measurable_const
    · simp only [h1, if_false, zero_mul]
      exact measurable_const
  · have herr : ∀ c, ∃ e, EntryVal.new (u c) qs = .error e := by
      intro c
      rcases he : EntryVal.new (u c) qs with e | v
      · exact ⟨e, rfl⟩
      · exact absurd ⟨c, v, he⟩ h
    refine Meas.lift ?_ fun x => ?_
    · rw [show (fun c => (EntryVal.new (u c) qs).isOk) = fun _ => false from funext fun c => by
        obtain ⟨e, he⟩ := herr c; rw [he]; rfl]
      exact measurable_const
    · rw [show (fun c => valueOr x (gateKey n) (EntryVal.new (u c) qs)) = fun _ => x from funext fun c => by
        obtain ⟨e, he⟩ := herr c; rw [he]; rfl]
      exact measurable_const

theorem pickQubits_meas (m : ℕ) (p : Primitive) {u : γ → Unitary} (hu : ∀ c, (u c).Exact (2 ^ k))
    (hm : Measurable fun c => unitaryKey k (u c)) : Meas (gateKey n) fun c => pickQubits m p (u c) := by
  unfold pickQubits
  rcases hl : p.allowedApplyTo with _ | lists
  · simp only [(hu _).dim]
    refine (Meas.choiceNoReplace m _).bind fun g hg => ?_
    exact Meas.switch' (m := fun l c => PyM.lift (EntryVal.new (u c.1) (l.map Int.ofNat))) hg fun l =>
      entryNew_meas (u := fun c : γ × Tape => u c.1) (fun c => hu c.1) (hm.comp measurable_fst) _
  · refine (Meas.choice lists.length).bind fun g hg => ?_
    refine Meas.switch (m := fun i c => match lists[i]? with
      | none => PyM.raise .indexError
      | some applyTo => PyM.lift (EntryVal.new (u c.1) applyTo)) hg fun i => ?_
    rcases lists[i]? with _ | qs
    · exact Meas.raise _
    · exact entryNew_meas (u := fun c : γ × Tape => u c.1) (fun c => hu c.1) (hm.comp measurable_fst) _

theorem createRandomEntryVal_meas {prims : List Primitive} (probs : Option (List ℝ)) (hv : ∀ p ∈ prims, p.Valid n)
    (hcont : ∀ p ∈ prims, p.Continuous) : Meas (gateKey n) fun _ : γ => createRandomEntryVal 0 (2 ^ n) prims probs := by
  simp only [createRandomEntryVal_eq]
  refine (Meas.choiceOpt _ probs).bind fun i hi => ?_
  refine Meas.switch (m := fun i _ => match (prims.filter usable)[i]? with
      | none => PyM.raise .indexError
      | some prim => do
        let u ← pickUnitary 0 prim
        pickQubits (intLog2 (2 ^ n)) prim u) hi fun i => ?_
  rcases hp : (prims.filter usable)[i]? with _ | p
  · exact Meas.raise _
  · have h1 := (List.mem_filter.mp (List.mem_of_getElem? hp)).1
    obtain ⟨k, hk1, hk2, hk3, hk4⟩ := hv p h1
    obtain ⟨u0, -, -, h0⟩ := pickUnitary_valid hk3 (Rng.start (fun _ => ⟨0, by norm_num, by norm_num⟩, fun _ => 0))
    exact (pickUnitary_meas hk3 (hcont p h1)).bind_of (Q := fun u => u.Exact (2 ^ k)) h0
      (fun _ _ h => pickUnitary_exact hk3 h) fun g hQ hg => pickQubits_meas _ p hQ hg

namespace Metropolis

theorem one_meas {gen : PyM Rng EntryVal} (h : Meas (gateKey n) fun _ : γ => gen) : Meas (gatesKey n) fun _ : γ => one gen := by
  unfold one
  exact h.bind fun g hg => Meas.pure (measurable_cons hg measurable_const)

theorem many_meas {gen : PyM Rng EntryVal} (h : ∀ {γ : Type} [MeasurableSpace γ], Meas (gateKey n) fun _ : γ => gen) :
    ∀ {γ : Type} [MeasurableSpace γ] (k : ℕ), Meas (gatesKey n) fun _ : γ => many gen k
  | _, _, 0 => Meas.pure measurable_const
  | γ, _, k + 1 => by
    unfold many
    exact h.bind fun v hv => (many_meas h k).bind fun vs hvs =>
      Meas.pure (measurable_cons (v := fun c : (γ × Tape) × Tape => v c.1) (hv.comp measurable_fst) hvs)

theorem block_meas {gen : Primitive → PyM Rng EntryVal} :
    ∀ {γ : Type} [MeasurableSpace γ] (counts : List (Primitive × ℤ)),
      (∀ pc ∈ counts, 0 < pc.2 → ∀ {γ : Type} [MeasurableSpace γ], Meas (gateKey n) fun _ : γ => gen pc.1) →
        Meas (gatesKey n) fun _ : γ => block gen counts
  | _, _, [], _ => Meas.pure measurable_const
  | γ, _, (p, count) :: rest, h => by
    unfold block
    have h1 : Meas (gatesKey n) fun _ : γ => many (gen p) count.toNat := by
      rcases lt_or_ge 0 count with h0 | h0
      · exact many_meas (h (p, count) (by simp) h0) _
      · rw [Int.toNat_of_nonpos h0]
        exact Meas.pure measurable_const
    exact h1.bind fun v hv => (block_meas rest fun pc hpc => h pc (by simp [hpc])).bind fun vs hvs =>
      Meas.pure (measurable_append (hv.comp measurable_fst) hvs)

theorem layer_meas {gen : Primitive → PyM Rng EntryVal} {counts : List (Primitive × ℤ)}
    (h : ∀ pc ∈ counts, 0 < pc.2 → ∀ {γ : Type} [MeasurableSpace γ], Meas (gateKey n) fun _ : γ => gen pc.1) :
    Meas (gatesKey n) fun _ : γ => layer gen counts := by
  unfold layer
  exact (block_meas counts h).bind fun g hg => Meas.shuffle hg

end Metropolis

namespace Rav

theorem blocks_meas {fresh : PyM Rng (List EntryVal)} (h : ∀ {γ : Type} [MeasurableSpace γ], Meas (gatesKey n) fun _ : γ => fresh) :
    ∀ {γ : Type} [MeasurableSpace γ] (k : ℕ), Meas (gatesKey n) fun _ : γ => blocks fresh k
  | _, _, 0 => Meas.pure measurable_const
  | _, _, k + 1 => by
    unfold blocks
    exact h.bind fun v hv => (blocks_meas h k).bind fun vs hvs => Meas.pure (measurable_append (hv.comp measurable_fst) hvs)

end Rav

end Stoq
