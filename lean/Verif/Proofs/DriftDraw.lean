import Verif.Proofs.DriftHeap
import Verif.Proofs.Walk
import Verif.Spec.DriftCompile

/-! # Random gates with the clean-up of small matrix entries and rounding -/

namespace Stoq

open Compiler Matrix
open scoped Matrix.Norms.L2Operator

variable {n : ℕ} {τ : Arith} {t ε : ℝ}

/-- The error of a constructed unitary is small enough. -/
structure DrawOk (n : ℕ) (τ : Arith) (t ε : ℝ) : Prop where
  tau : τ.Accurate (2 ^ n) t
  le : 3 * 2 ^ n * t ≤ ε
  lim : ε ≤ driftLimit

theorem DrawOk.t0 (h : DrawOk n τ t ε) : 0 ≤ t := h.tau.t_nonneg

theorem DrawOk.dim (h : DrawOk n τ t ε) {k : ℕ} (hk : k ≤ n) : 3 * ((2 ^ k : ℕ) : ℝ) * t ≤ ε := by
  refine le_trans ?_ h.le
  rw [cast_two_pow]
  have h1 : (2 : ℝ) ^ k ≤ 2 ^ n := pow_le_pow_right₀ (by norm_num) hk
  have := h.t0
  gcongr

theorem DrawOk.nonneg (h : DrawOk n τ t ε) : 0 ≤ ε := le_trans (by have := h.t0; positivity) h.le

theorem Primitive.Valid.nearly {p : Primitive} (h : p.Valid n) (hd : DrawOk n τ t ε) : p.Nearly n t ε := by
  obtain ⟨k, h1, h2, h3, h4⟩ := h
  refine ⟨k, h1, h2, ?_, h4⟩
  revert h3
  rcases p.unitary with u | pu
  · exact fun h => ⟨_, h.unitary, h.near.mono hd.nonneg⟩
  · refine fun ⟨g1, g2, g3⟩ => ⟨g1, g2, fun values e1 e2 => ?_⟩
    obtain ⟨a, f1, f2, f3, f4⟩ := g3 values e1 e2
    refine ⟨a, f1, f2, f3, _, f4, 0, CloseTo.near ⟨1, by simp, by simp⟩ (Unitary.norm_det_of_unitary f4), ?_⟩
    have := hd.dim h2
    rw [cast_two_pow] at this
    simpa using this

/-- The unitary a parameterized primitive yields. -/
theorem asUnitary_near (hd : DrawOk n τ t ε) {k : ℕ} (hk : k ≤ n) {pu : ParamUnitary} (hdim : pu.dimension = 2 ^ k)
    {values : List ℝ} (h5 : values.length = pu.parameters.length)
    (h6 : ∀ pv ∈ pu.parameters.zip values, pv.1.minValue ≤ pv.2 ∧ pv.2 ≤ pv.1.maxValue) {a : Arr}
    (h7 : pu.parameterizedMatrix values = .ok a) (h8 : a.rows = 2 ^ k) (h9 : a.cols = 2 ^ k)
    {V : Matrix (Fin (2 ^ k)) (Fin (2 ^ k)) ℂ} (hV : V ∈ unitaryGroup (Fin (2 ^ k)) ℂ) {ε' : ℝ}
    (hX : NearMat (a.toMatrix (2 ^ k)) V ε') (hle : ε' + 3 * 2 ^ k * t ≤ ε) :
    ∃ u, pu.asUnitary τ values = .ok u ∧ u.Near V ε := by
  rw [← cast_two_pow] at hle
  obtain ⟨u, h1, h2, -⟩ := Unitary.new_near (Nat.two_pow_pos k)
    (hd.tau.mono (Nat.pow_le_pow_right (by norm_num) hk)) h8 h9 hV hX (hle.trans hd.lim) (some pu.operationName)
    (some (buildDict (pu.parameters.zip values) [])) false []
  refine ⟨u, ?_, h2.mono hle⟩
  rw [asUnitary_eq h5 (fun pv hpv => h6 pv hpv), h7, ok_bind, hdim]
  exact h1

theorem near_dim_inj {k l : ℕ} {u : Unitary} {V : Matrix (Fin (2 ^ k)) (Fin (2 ^ k)) ℂ} (h : u.Near V ε)
    (hl : u.getDimension = 2 ^ l) : k = l :=
  Nat.pow_right_injective le_rfl (h.dim.symm.trans hl)

/-- A gate from a primitive realises an ideal gate. -/
theorem fromPrimitive_near (hd : DrawOk n τ t ε) {p : Primitive} (hp : p.Nearly n t ε) {v : EntryVal} (hv : v.WF)
    (h : FromPrimitive τ n p v) : ∃ g : Gate, g.Ok n ∧ v.Realises g ε := by
  obtain ⟨k, hk1, hk2, hu, hq⟩ := hp
  obtain ⟨h1, h2⟩ := h
  have key : ∃ V ∈ unitaryGroup (Fin (2 ^ k)) ℂ, v.unitary.Near V ε := by
    rcases hpu : p.unitary with u | pu
    · rw [hpu] at hu h1
      rw [show v.unitary = u from h1]
      exact hu
    · rw [hpu] at hu h1
      obtain ⟨g1, g2, g3⟩ := hu
      obtain ⟨values, e1, e2, e3⟩ := h1
      obtain ⟨a, f1, f2, f3, V, f5, ε', f4, f6⟩ := g3 values e1 e2
      obtain ⟨u, e4, e5⟩ := asUnitary_near hd hk2 g1 e1 e2 f1 f2 f3 f5 f4 f6
      rw [e3] at e4
      obtain rfl := Except.ok.inj e4
      exact ⟨V, f5, e5⟩
  obtain ⟨V, hV, hn⟩ := key
  obtain rfl := near_dim_inj hn hv.dim
  refine ⟨⟨v.applyTo, V⟩, ⟨hv.nodup, hv.nonempty, ?_, hV⟩, rfl, hn⟩
  rcases ha : p.allowedApplyTo with _ | lists
  · rw [ha] at h2; exact h2.2
  · rw [ha] at h2 hq
    intro q hqm
    have := ((hq _ h2).2.2 q (List.mem_map.mpr ⟨q, hqm, rfl⟩)).2
    exact Int.ofNat_lt.mp this

theorem exists_ideal (hd : DrawOk n τ t ε) {prims : List Primitive} (hp : ∀ p ∈ prims, p.Nearly n t ε) :
    ∃ ideal, IdealFor τ n prims ε ideal := by
  classical
  refine ⟨fun v => if h : ∃ g : Gate, g.Ok n ∧ v.Realises g ε then h.choose else ⟨[], 1⟩, fun p hpm v hv hf => ?_⟩
  have h := fromPrimitive_near hd (hp p hpm) hv hf
  simp only
  rw [dif_pos h]
  exact h.choose_spec

/-! ## Drawing succeeds -/

theorem pickUnitary_near (hd : DrawOk n τ t ε) {k : ℕ} (hk : k ≤ n) {prim : Primitive}
    (h : match prim.unitary with
      | .inl u => ∃ V ∈ unitaryGroup (Fin (2 ^ k)) ℂ, u.Near V ε
      | .inr pu => pu.dimension = 2 ^ k ∧ (∀ q ∈ pu.parameters, q.minValue ≤ q.maxValue) ∧
          ∀ values : List ℝ, values.length = pu.parameters.length →
            (∀ pv ∈ pu.parameters.zip values, pv.1.minValue ≤ pv.2 ∧ pv.2 ≤ pv.1.maxValue) →
            ∃ a, pu.parameterizedMatrix values = .ok a ∧ a.rows = 2 ^ k ∧ a.cols = 2 ^ k ∧
              ∃ V ∈ unitaryGroup (Fin (2 ^ k)) ℂ, ∃ ε', NearMat (a.toMatrix (2 ^ k)) V ε' ∧ ε' + 3 * 2 ^ k * t ≤ ε)
    (r : Rng) :
    ∃ u r', pickUnitary τ prim r = (.ok u, r') ∧ u.getDimension = 2 ^ k := by
  unfold pickUnitary
  rcases hu : prim.unitary with u | pu
  · rw [hu] at h
    obtain ⟨V, -, h⟩ := h
    exact ⟨u, r, rfl, h.dim⟩
  · rw [hu] at h
    simp only at h ⊢
    obtain ⟨h1, h2, h3⟩ := h
    obtain ⟨vs, r', h4, h5, h6⟩ := randomParameterValues_ok pu.parameters h2 r
    obtain ⟨a, h7, h8, h9, V, h11, ε', h10, h12⟩ := h3 vs h5 h6
    obtain ⟨u, e1, e2⟩ := asUnitary_near hd hk h1 h5 h6 h7 h8 h9 h11 h10 h12
    rw [PyM.bind_of_ok h4]
    exact ⟨u, r', by rw [PyM.lift_eq_ok_iff]; exact ⟨e1, rfl⟩, e2.dim⟩

theorem pickQubits_runs {k : ℕ} {prim : Primitive} {u : Unitary} (hk : 1 ≤ k) (hkn : k ≤ n)
    (hu : u.getDimension = 2 ^ k) (hus : usable prim = true)
    (h : match prim.allowedApplyTo with
      | none => True
      | some lists => ∀ l ∈ lists, l.Nodup ∧ l.length = k ∧ ∀ q ∈ l, 0 ≤ q ∧ q < (n : ℤ)) (r : Rng) :
    ∃ v r', pickQubits n prim u r = (.ok v, r') := by
  have mk : ∀ qs : List ℤ, qs.Nodup → qs.length = k → (∀ q ∈ qs, 0 ≤ q ∧ q < (n : ℤ)) →
      ∃ v, EntryVal.new u qs = .ok v := by
    intro qs h1 h2 h3
    have hne : qs ≠ [] := by intro h; rw [h] at h2; simp at h2; omega
    refine ⟨⟨u, qs.map Int.toNat⟩, ?_⟩
    unfold EntryVal.new
    rw [assertE_of h1, ok_bind, assertE_of (by rw [h2, hu]), ok_bind, raiseUnless_of hne, ok_bind,
      assertE_of (fun a ha => (h3 a ha).1), ok_bind]
    rfl
  unfold pickQubits
  rcases hl : prim.allowedApplyTo with _ | lists
  · simp only
    rw [hu, show intLog2 (2 ^ k) = k from log2_pow k]
    obtain ⟨l, r', h1, h2, h3, h4⟩ := Rng.choiceNoReplace_ok hkn r
    rw [PyM.bind_of_ok h1]
    obtain ⟨v, h5⟩ := mk (l.map Int.ofNat) (h3.map fun a b hab => Int.ofNat.inj hab) (by simpa using h2)
      (by
        intro q hq
        obtain ⟨a, ha, rfl⟩ := List.mem_map.mp hq
        exact ⟨Int.natCast_nonneg a, Int.ofNat_lt.mpr (h4 a ha)⟩)
    exact ⟨v, r', by rw [PyM.lift_eq_ok_iff]; exact ⟨h5, rfl⟩⟩
  · rw [hl] at h
    simp only at h ⊢
    have hlen : 0 < lists.length := by simpa [usable, hl] using hus
    obtain ⟨i, h1, h2⟩ := Rng.choice_ok hlen r
    rw [PyM.bind_of_ok h1, List.getElem?_eq_getElem h2]
    simp only
    obtain ⟨h3, h4, h5⟩ := h _ (List.getElem_mem h2)
    obtain ⟨v, h6⟩ := mk _ h3 h4 h5
    exact ⟨v, _, by rw [PyM.lift_eq_ok_iff]; exact ⟨h6, rfl⟩⟩

theorem createRandomEntryVal_near (hd : DrawOk n τ t ε) {prims : List Primitive} {probs : Option (List ℝ)}
    (hc : ChoiceOk prims probs) (hv : ∀ p ∈ prims, p.Nearly n t ε) (r : Rng) :
    ∃ v r', createRandomEntryVal τ (2 ^ n) prims probs r = (.ok v, r') := by
  rw [createRandomEntryVal_eq]
  obtain ⟨i, r1, h1, h2⟩ := choiceOpt_ok hc r
  rw [PyM.bind_of_ok h1, List.getElem?_eq_getElem h2]
  simp only
  obtain ⟨hp1, hp2⟩ := List.mem_filter.mp (List.getElem_mem h2)
  obtain ⟨k, hk1, hk2, hk3, hk4⟩ := hv _ hp1
  obtain ⟨u, r2, h3, h4⟩ := pickUnitary_near hd hk2 hk3 r1
  rw [PyM.bind_of_ok h3, show intLog2 (2 ^ n) = n from log2_pow n]
  exact pickQubits_runs hk1 hk2 h4 hp2 hk4 r2

theorem IdealFor.generated {prims : List Primitive} {probs : Option (List ℝ)} {ideal : EntryVal → Gate}
    (h : IdealFor τ n prims ε ideal) {v : EntryVal} (hv : Generated τ (2 ^ n) prims probs v) :
    (ideal v).Ok n ∧ v.Realises (ideal v) ε := by
  obtain ⟨h1, p, h2, -, h3⟩ := generated_from hv
  rw [show intLog2 (2 ^ n) = n from log2_pow n] at h3
  exact h p h2 v h1 h3

theorem IdealFor.generatedLayer {counts : List (Primitive × ℤ)} {ideal : EntryVal → Gate}
    (h : IdealFor τ n (counts.map Prod.fst) ε ideal) {v : EntryVal} (hv : GeneratedLayer τ (2 ^ n) counts v) :
    (ideal v).Ok n ∧ v.Realises (ideal v) ε := by
  obtain ⟨pc, hpc, hg⟩ := hv
  obtain ⟨h1, p, h2, -, h3⟩ := generated_from hg
  rw [show intLog2 (2 ^ n) = n from log2_pow n] at h3
  obtain rfl := List.mem_singleton.mp h2
  exact h _ (List.mem_map.mpr ⟨pc, hpc, rfl⟩) v h1 h3

end Stoq
