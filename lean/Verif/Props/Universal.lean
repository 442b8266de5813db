import Verif.Proofs.Universal
import Verif.Spec.Universal
import Verif.Props.Gates
import Verif.Props.Reach
import Verif.Props.Succeeds

/-!
# C76: the gate sets of the examples are universal, and the compiler finds every target
-/

namespace Stoq

open Matrix Complex UnitaryDefinitions Compiler
open scoped Matrix.Norms.L2Operator

/-- The matrices of the gates that satisfy `P`. -/
def gateSet (n : ℕ) (P : EntryVal → Prop) : Set (Matrix (Fin (2 ^ n)) (Fin (2 ^ n)) ℂ) := {A | ∃ v, P v ∧ v.op n = A}

theorem exists_gates {n : ℕ} {P : EntryVal → Prop} {l : List (Matrix (Fin (2 ^ n)) (Fin (2 ^ n)) ℂ)}
    (h : ∀ A ∈ l, A ∈ gateSet n P) : ∃ gates : List EntryVal, (∀ v ∈ gates, P v) ∧ circuit n gates = l.prod := by
  induction l with
  | nil => exact ⟨[], by simp, rfl⟩
  | cons A l ih =>
    obtain ⟨gates, h1, h2⟩ := ih fun B hB => h B (List.mem_cons_of_mem _ hB)
    obtain ⟨v, hv, rfl⟩ := h A List.mem_cons_self
    refine ⟨gates ++ [v], fun x hx => ?_, ?_⟩
    · rcases List.mem_append.mp hx with hx | hx
      · exact h1 x hx
      · rw [List.mem_singleton.mp hx]; exact hv
    · rw [circuit_append, h2, List.prod_cons]
      simp [circuit]

theorem universal_of_approximated {n : ℕ} {P : EntryVal → Prop}
    (h : ∀ T ∈ unitaryGroup (Fin (2 ^ n)) ℂ, Approximated (gateSet n P) T) : Universal n P := by
  intro T hT ε hε
  obtain ⟨l, hl, c, hc, hle⟩ := (h T hT).2 (ε / 2) (by positivity)
  obtain ⟨gates, h1, h2⟩ := exists_gates hl
  refine ⟨gates, h1, ?_⟩
  have h3 := overlap_sub_le (Nat.two_pow_pos n) hT (A := l.prod) (B := c • T)
  rw [overlap_smul_right hc, overlap_self (Nat.two_pow_pos n) hT] at h3
  rw [h2]
  linarith

theorem Primitive.Acts.fits {n k : ℕ} {p : Primitive} {qs : List ℕ} (hp : p.Valid n) (h : p.Acts n qs)
    (hk : p.getDimension = 2 ^ k) (hlen : p.allowedApplyTo = none → qs.length = k) :
    qs.Nodup ∧ (∀ q ∈ qs, q < n) ∧ qs.length = k := by
  obtain ⟨k', h1, h2, h3, h4⟩ := hp
  unfold Primitive.Acts at h
  have hkk : k' = k := by
    apply Nat.pow_right_injective (le_refl 2)
    change 2 ^ k' = 2 ^ k
    rw [← hk]
    unfold Primitive.getDimension
    cases hu : p.unitary with
    | inl u => rw [hu] at h3; exact h3.dim.symm
    | inr pu => rw [hu] at h3; exact h3.1.symm
  cases ha : p.allowedApplyTo with
  | none => rw [ha] at h; exact ⟨h.1, h.2, hlen ha⟩
  | some lists =>
    rw [ha] at h h4
    obtain ⟨g1, g2, g3⟩ := h4 _ h
    refine ⟨g1.of_map _, fun q hq => ?_, by rw [List.length_map] at g2; omega⟩
    have := (g3 (Int.ofNat q) (List.mem_map_of_mem hq)).2
    simpa using this

/-- The couplings. -/
theorem connected_generating {n : ℕ} {S : Set (Matrix (Fin (2 ^ n)) (Fin (2 ^ n)) ℂ)} {pair : ℕ → ℕ → Prop}
    (hc : Connected n pair) (h : ∀ a b, pair a b → a ≠ b ∧ a < n ∧ b < n)
    (hg : ∀ a b, pair a b → Generating S (site n a Gate.X * site n b Gate.X)) (i : ℕ) (hi : i < n) (j : ℕ) (hj : j < n) :
    Relation.ReflTransGen (fun a b => a < n ∧ b < n ∧ a ≠ b ∧ Generating S (site n a Gate.X * site n b Gate.X)) i j := by
  refine Relation.ReflTransGen.mono (fun a b hab => ?_) _ _ (hc i hi j hj)
  rcases hab with hab | hab
  · obtain ⟨h1, h2, h3⟩ := h a b hab
    exact ⟨h2, h3, h1, hg a b hab⟩
  · obtain ⟨h1, h2, h3⟩ := h b a hab
    have := hg b a hab
    refine ⟨h3, h2, h1.symm, ?_⟩
    have e : site n b Gate.X * site n a Gate.X = site n a Gate.X * site n b Gate.X := Gate.X_commute h2 h3
    rwa [e] at this

theorem rot_site_unitary {n i : ℕ} (hi : i < n) {A : Matrix (Fin 2) (Fin 2) ℂ}
    (hA : A ∈ unitaryGroup (Fin 2) ℂ) : site n i A ∈ unitaryGroup (Fin (2 ^ n)) ℂ :=
  embed_mem_unitary (a := [i]) (by simp) (by simpa using hi) hA

theorem duo_unitary {n i j : ℕ} (hij : i ≠ j) (hi : i < n) (hj : j < n) {A : Matrix (Fin 4) (Fin 4) ℂ}
    (hA : A ∈ unitaryGroup (Fin 4) ℂ) : duo n i j A ∈ unitaryGroup (Fin (2 ^ n)) ℂ :=
  embed_mem_unitary (a := [i, j]) (by simpa using hij) (by simp [hi, hj]) hA

theorem Approximated.gate {n : ℕ} {P : EntryVal → Prop} {v : EntryVal} (hv : P v)
    (hu : v.op n ∈ unitaryGroup (Fin (2 ^ n)) ℂ) : Approximated (gateSet n P) (v.op n) :=
  ⟨hu, fun ε hε => ⟨[v.op n], fun A hA => by rw [List.mem_singleton.mp hA]; exact ⟨v, hv, rfl⟩, 1, by simp,
    by simpa using hε.le⟩⟩

/-- C76: the primitives `rotation_xy` and `xx`, as in the examples and tests, are universal, if rotations are allowed on
every qubit and `xx` is allowed on pairs of qubits that join all of them (without lists of allowed qubits, both hold). -/
theorem C76_native_universal {n : ℕ} {prims : List Primitive} {xy ms : ParamUnitary}
    (hxy : ParamDefinitions.rotationXY 0 = .ok xy) (hms : ParamDefinitions.xx 0 = .ok ms)
    (hprims : ∀ p ∈ prims, p.Valid n) (h1 : ∀ i < n, ∃ p ∈ prims, p.unitary = .inr xy ∧ p.Acts n [i])
    (h2 : Connected n fun a b => ∃ p ∈ prims, p.unitary = .inr ms ∧ p.Acts n [a, b]) :
    Universal n (Drawable (2 ^ n) prims) := by
  obtain ⟨⟨xy', e1, -, hrot⟩, -, ⟨ms', e2, -, hxx⟩⟩ := C27_parameterized
  obtain rfl : xy' = xy := by rw [hxy] at e1; exact (Except.ok.inj e1).symm
  obtain rfl : ms' = ms := by rw [hms] at e2; exact (Except.ok.inj e2).symm
  have hxyp := ParamDefinitions.rotationXY_eq 0
  rw [hxy] at hxyp
  have hmsp := ParamDefinitions.xx_eq 0
  rw [hms] at hmsp
  have hpar : xy'.parameters = [⟨"theta", 0, 2 * Real.pi, true⟩, ⟨"phi", 0, 2 * Real.pi, true⟩] ∧ xy'.dimension = 2 := by
    rw [Except.ok.inj hxyp]; exact ⟨rfl, rfl⟩
  have hpar2 : ms'.parameters = [⟨"theta", 0, 2 * Real.pi, true⟩] ∧ ms'.dimension = 4 := by
    rw [Except.ok.inj hmsp]; exact ⟨rfl, rfl⟩
  have hpi := Real.pi_pos
  -- rotations
  have hR : ∀ i < n, ∀ θ φ, 0 ≤ θ → θ < 2 * Real.pi → 0 ≤ φ → φ < 2 * Real.pi →
      Approximated (gateSet n (Drawable (2 ^ n) prims))
        (site n i (Gate.rot ((Real.cos φ : ℂ) • Gate.X + (Real.sin φ : ℂ) • Gate.Y) θ)) := by
    intro i hi θ φ a1 a2 a3 a4
    obtain ⟨p, hp, hpu, hpa⟩ := h1 i hi
    obtain ⟨u, b1, b2, b3, -⟩ := hrot θ φ ⟨a1, a2.le⟩ ⟨a3, a4.le⟩
    have hop : (⟨u, [i]⟩ : EntryVal).op n = site n i (u.matrix.toMatrix 2) := rfl
    rw [b3.2.2] at hop
    rw [← hop]
    refine Approximated.gate ⟨p, hp, ?_, ?_, by simp, ?_, by simp⟩ ?_
    · rw [hpu]
      refine ⟨[θ, φ], by rw [hpar.1]; rfl, ?_, b1⟩
      rw [hpar.1]
      intro qv hqv
      simp only [List.zip_cons_cons, List.zip_nil_right, List.mem_cons, List.not_mem_nil, or_false] at hqv
      rcases hqv with rfl | rfl
      · exact ⟨a1, Or.inl a2⟩
      · exact ⟨a3, Or.inl a4⟩
    · unfold Primitive.Acts at hpa
      cases ha : p.allowedApplyTo with
      | none => simpa [intLog2_pow] using hi
      | some lists => rw [ha] at hpa; exact hpa
    · change 2 ^ 1 = u.getDimension
      rw [b2.dim]
      rfl
    · rw [hop]
      exact rot_site_unitary hi (mem_specialUnitaryGroup_iff.mp (Gate.rot_axis_su θ φ)).1
  have hX : ∀ i < n, Generating (gateSet n (Drawable (2 ^ n) prims)) (site n i Gate.X) := fun i hi =>
    Generating.of_rot hi Gate.X_ct Gate.X_sq fun θ a1 a2 => by
      have := hR i hi θ 0 a1 a2 le_rfl (by linarith)
      simpa using this
  have hY : ∀ i < n, Generating (gateSet n (Drawable (2 ^ n) prims)) (site n i Gate.Y) := fun i hi =>
    Generating.of_rot hi Gate.Y_ct Gate.Y_sq fun θ a1 a2 => by
      have := hR i hi θ (Real.pi / 2) a1 a2 (by linarith) (by linarith)
      rw [Real.cos_pi_div_two, Real.sin_pi_div_two] at this
      simpa using this
  have hfit : ∀ a b, (∃ p ∈ prims, p.unitary = .inr ms' ∧ p.Acts n [a, b]) → a ≠ b ∧ a < n ∧ b < n := by
    rintro a b ⟨p, hp, hpu, hpa⟩
    obtain ⟨g1, g2, -⟩ := hpa.fits (k := 2) (hprims p hp) (by unfold Primitive.getDimension; rw [hpu]; exact hpar2.2)
      (fun _ => rfl)
    exact ⟨by simpa using g1, g2 a (by simp), g2 b (by simp)⟩
  refine universal_of_approximated fun T hT => approximated_of_gates hX hY (connected_generating h2 hfit ?_) hT
  intro a b hab
  obtain ⟨h3, h4, h5⟩ := hfit a b hab
  obtain ⟨p, hp, hpu, hpa⟩ := hab
  refine Generating.of_xx h3 h4 h5 fun θ a1 a2 => ?_
  obtain ⟨u, b1, b2, b3, -⟩ := hxx θ ⟨a1, a2.le⟩
  have hop : (⟨u, [a, b]⟩ : EntryVal).op n = duo n a b (u.matrix.toMatrix 4) := rfl
  rw [b3.2.2] at hop
  rw [← hop]
  refine Approximated.gate ⟨p, hp, ?_, ?_, by simpa using h3, ?_, by simp⟩ ?_
  · rw [hpu]
    refine ⟨[θ], by rw [hpar2.1]; rfl, ?_, b1⟩
    rw [hpar2.1]
    intro qv hqv
    simp only [List.zip_cons_cons, List.zip_nil_right, List.mem_cons, List.not_mem_nil, or_false] at hqv
    subst hqv
    exact ⟨a1, Or.inl a2⟩
  · unfold Primitive.Acts at hpa
    cases ha : p.allowedApplyTo with
    | none => simp [intLog2_pow, h4, h5]
    | some lists => rw [ha] at hpa; exact hpa
  · change 2 ^ 2 = u.getDimension
    rw [b2.dim]
    rfl
  · rw [hop]
    exact duo_unitary h3 h4 h5 (mem_specialUnitaryGroup_iff.mp (Gate.rot_XX_su _)).1

theorem offered_mem {n : ℕ} {prims : List Primitive} {probs : Option (List ℝ)} {law : PMF EntryVal}
    (hc : ChoiceOk prims probs) (hv : ∀ p ∈ prims, p.Valid n) (hl : IsGateLaw n prims probs law) {u : Unitary}
    {qs : List ℕ} (h : Offered n prims probs u qs) (hdim : 2 ^ qs.length = u.getDimension) :
    (⟨u, qs⟩ : EntryVal) ∈ law.support := by
  obtain ⟨i, q, h1, h2, h3, h4⟩ := h
  refine (C69_possible_gates hc hv hl _).mpr ⟨i, q, h1, h2, h3, ?_⟩
  unfold Primitive.Acts at h4
  cases ha : q.allowedApplyTo with
  | none => rw [ha] at h4; exact ⟨h4.1, h4.2, hdim⟩
  | some lists => rw [ha] at h4; exact h4

theorem Offered.fits {n k : ℕ} {prims : List Primitive} {probs : Option (List ℝ)} {u : Unitary} {qs : List ℕ}
    (hv : ∀ p ∈ prims, p.Valid n) (h : Offered n prims probs u qs) (hdim : u.getDimension = 2 ^ k)
    (hlen : qs.length = k) : qs.Nodup ∧ ∀ q ∈ qs, q < n := by
  obtain ⟨i, q, h1, -, h3, h4⟩ := h
  have hq : q ∈ prims := (List.mem_filter.mp (List.mem_of_getElem? h1)).1
  obtain ⟨g1, g2, -⟩ := h4.fits (k := k) (hv q hq) (by unfold Primitive.getDimension; rw [h3]; exact hdim) (fun _ => hlen)
  exact ⟨g1, g2⟩

section Fixed

variable {n : ℕ} {prims : List Primitive} {probs : Option (List ℝ)} {law : PMF EntryVal}

theorem approximated_site (hch : ChoiceOk prims probs) (hprims : ∀ p ∈ prims, p.Valid n)
    (hlaw : IsGateLaw n prims probs law) {u : Unitary} {M : Matrix (Fin 2) (Fin 2) ℂ} {c : ℂ} (hc : ‖c‖ = 1)
    (he : u.Exact 2) (hM : M = c • u.matrix.toMatrix 2) {i : ℕ} (hi : i < n) (h : Offered n prims probs u [i]) :
    Approximated (gateSet n (· ∈ law.support)) (site n i M) := by
  have hop : (⟨u, [i]⟩ : EntryVal).op n = site n i (u.matrix.toMatrix 2) := rfl
  rw [hM, site_smul]
  refine Approximated.smul hc ?_
  rw [← hop]
  refine Approximated.gate (offered_mem hch hprims hlaw h (by rw [he.dim]; rfl)) ?_
  rw [hop]
  exact rot_site_unitary hi (mem_specialUnitaryGroup_iff.mp he.2.2.2).1

theorem approximated_duo (hch : ChoiceOk prims probs) (hprims : ∀ p ∈ prims, p.Valid n)
    (hlaw : IsGateLaw n prims probs law) {u : Unitary} {M : Matrix (Fin 4) (Fin 4) ℂ} {c : ℂ} (hc : ‖c‖ = 1)
    (he : u.Exact 4) (hM : M = c • u.matrix.toMatrix 4) {i j : ℕ} (h : Offered n prims probs u [i, j]) :
    Approximated (gateSet n (· ∈ law.support)) (duo n i j M) := by
  obtain ⟨g1, g2⟩ := h.fits (k := 2) hprims he.dim rfl
  have hop : (⟨u, [i, j]⟩ : EntryVal).op n = duo n i j (u.matrix.toMatrix 4) := rfl
  rw [hM, duo_smul]
  refine Approximated.smul hc ?_
  rw [← hop]
  refine Approximated.gate (offered_mem hch hprims hlaw h (by rw [he.dim]; rfl)) ?_
  rw [hop]
  exact duo_unitary (by simpa using g1) (g2 i (by simp)) (g2 j (by simp)) (mem_specialUnitaryGroup_iff.mp he.2.2.2).1

theorem samePhase_symm {d : ℕ} {A B : Matrix (Fin d) (Fin d) ℂ} (h : SamePhase A B) : ∃ c : ℂ, ‖c‖ = 1 ∧ B = c • A := by
  obtain ⟨c, hc, rfl⟩ := h
  have hc0 : c ≠ 0 := by rw [← norm_ne_zero_iff, hc]; exact one_ne_zero
  exact ⟨c⁻¹, by simp [hc], by rw [smul_smul, inv_mul_cancel₀ hc0, one_smul]⟩

/-- C76: fixed rotations `rx(a)`, `ry(b)` and `xx(c)` by angles that are irrational multiples of `π` are universal. -/
theorem C76_fixed_universal (hch : ChoiceOk prims probs) (hprims : ∀ p ∈ prims, p.Valid n)
    (hlaw : IsGateLaw n prims probs law) {a b c : ℝ} (ha : Irrational (a / Real.pi)) (hb : Irrational (b / Real.pi))
    (hc : Irrational (c / Real.pi)) {ux uy uc : Unitary} (hux : rx 0 a = .ok ux) (huy : ry 0 b = .ok uy)
    (huc : xx 0 c = .ok uc) (h1 : ∀ i < n, Offered n prims probs ux [i] ∧ Offered n prims probs uy [i])
    (h2 : Connected n fun i j => Offered n prims probs uc [i, j]) : Universal n (· ∈ law.support) := by
  obtain ⟨ux', e1, hx1, hx2, -⟩ := C27_rx a
  obtain ⟨uy', e2, hy1, hy2, -⟩ := C27_ry b
  obtain ⟨uc', e3, hc1, hc2, -⟩ := C27_xx c
  obtain rfl : ux' = ux := by rw [hux] at e1; exact (Except.ok.inj e1).symm
  obtain rfl : uy' = uy := by rw [huy] at e2; exact (Except.ok.inj e2).symm
  obtain rfl : uc' = uc := by rw [huc] at e3; exact (Except.ok.inj e3).symm
  have hfit : ∀ i j, Offered n prims probs uc' [i, j] → i ≠ j ∧ i < n ∧ j < n := by
    intro i j h
    obtain ⟨g1, g2⟩ := h.fits (k := 2) hprims hc2.dim rfl
    exact ⟨by simpa using g1, g2 i (by simp), g2 j (by simp)⟩
  refine universal_of_approximated fun T hT => approximated_of_gates (fun i hi => ?_) (fun i hi => ?_)
    (connected_generating h2 hfit fun i j hij => ?_) hT
  · exact Generating.of_rot_irrational hi Gate.X_ct Gate.X_sq ha
      (approximated_site hch hprims hlaw (c := 1) (by simp) hx2 (by rw [one_smul, hx1.2.2]) hi (h1 i hi).1)
  · exact Generating.of_rot_irrational hi Gate.Y_ct Gate.Y_sq hb
      (approximated_site hch hprims hlaw (c := 1) (by simp) hy2 (by rw [one_smul, hy1.2.2]) hi (h1 i hi).2)
  · obtain ⟨g1, g2, g3⟩ := hfit i j hij
    exact Generating.of_xx_irrational g1 g2 g3 hc
      (approximated_duo hch hprims hlaw (c := 1) (by simp) hc2 (by rw [one_smul, hc1.2.2]) hij)

/-- C76: Hadamard, T and controlled not are universal. -/
theorem C76_clifford_t_universal (hch : ChoiceOk prims probs) (hprims : ∀ p ∈ prims, p.Valid n)
    (hlaw : IsGateLaw n prims probs law) {uh ut uc : Unitary} (huh : h 0 = .ok uh) (hut : t 0 = .ok ut)
    (huc : cnot 0 = .ok uc) (h1 : ∀ i < n, Offered n prims probs uh [i] ∧ Offered n prims probs ut [i])
    (h2 : Connected n fun i j => Offered n prims probs uc [i, j]) : Universal n (· ∈ law.support) := by
  obtain ⟨uh', e1, hh1, hh2, -⟩ := C27_hadamard
  obtain ⟨ut', e2, ht1, ht2, -⟩ := C27_t
  obtain ⟨uc', e3, hc1, hc2, -⟩ := C27_cnot
  obtain rfl : uh' = uh := by rw [huh] at e1; exact (Except.ok.inj e1).symm
  obtain rfl : ut' = ut := by rw [hut] at e2; exact (Except.ok.inj e2).symm
  obtain rfl : uc' = uc := by rw [huc] at e3; exact (Except.ok.inj e3).symm
  have hfit : ∀ i j, Offered n prims probs uc' [i, j] → i ≠ j ∧ i < n ∧ j < n := by
    intro i j h
    obtain ⟨g1, g2⟩ := h.fits (k := 2) hprims hc1.dim rfl
    exact ⟨by simpa using g1, g2 i (by simp), g2 j (by simp)⟩
  have hH : ∀ i < n, Approximated (gateSet n (· ∈ law.support)) (site n i Gate.H) := fun i hi =>
    approximated_site hch hprims hlaw (c := I) (by simp) hh1
      (by rw [hh2.2.2, smul_smul, mul_neg, I_mul_I, neg_neg, one_smul]) hi (h1 i hi).1
  have hT : ∀ i < n, Approximated (gateSet n (· ∈ law.support)) (site n i (Gate.rot Gate.Z (Real.pi / 4))) := by
    intro i hi
    obtain ⟨c, hc, hcT⟩ := samePhase_symm ht2
    refine approximated_site hch hprims hlaw (c := exp (((-(Real.pi / 8) : ℝ) : ℂ) * I) * c) ?_ ht1 ?_ hi (h1 i hi).2
    · rw [norm_mul, norm_exp_ofReal_mul_I, hc, one_mul]
    · rw [rotZ_T, hcT, smul_smul]
  have hXY := fun i hi => Generating.of_ht hi (hH i hi) (hT i hi)
  refine universal_of_approximated fun T hT => approximated_of_gates (fun i hi => (hXY i hi).1)
    (fun i hi => (hXY i hi).2) (connected_generating h2 hfit fun i j hij => ?_) hT
  obtain ⟨g1, g2, g3⟩ := hfit i j hij
  obtain ⟨c, hc, hcM⟩ := samePhase_symm hc2
  exact Generating.of_cnot g1 g2 g3 (hXY i g2).1 (approximated_duo hch hprims hlaw hc hc1 hcM hij)

end Fixed

/-- A list of nonnegative weights gives a distribution of indices. -/
theorem exists_indexLaw {n : ℕ} {probs : Option (List ℝ)} (h0 : probs = none → 0 < n)
    (h : ∀ p, probs = some p → Rng.ValidP n p) : ∃ ι : PMF (Fin n), IsIndexLaw probs ι := by
  cases probs with
  | none =>
    have : NeZero n := ⟨(h0 rfl).ne'⟩
    exact ⟨_, Rng.HasLaw.isIndexLaw_uniform⟩
  | some p =>
    have hv := h p rfl
    have hlen : p.length = n := hv.len
    subst hlen
    have hs := hv.sum_pos
    refine ⟨PMF.ofFintype (fun i => ENNReal.ofReal (p[i.val] / p.sum)) ?_, rfl, fun i => rfl⟩
    rw [← ENNReal.ofReal_sum_of_nonneg fun i _ => div_nonneg (hv.nonneg _ (List.getElem_mem i.2)) hs.le, ← Finset.sum_div,
      Fin.sum_univ_getElem, div_self hs.ne', ENNReal.ofReal_one]

/-- Primitives without parameters have a distribution of random gates. -/
theorem exists_gateLaw {n : ℕ} {prims : List Primitive} {probs : Option (List ℝ)} (hch : ChoiceOk prims probs)
    (hprims : ∀ p ∈ prims, p.Valid n) (hfix : ∀ p ∈ prims, ∃ u, p.unitary = .inl u) :
    ∃ law, IsGateLaw n prims probs law := by
  unfold ChoiceOk at hch
  rw [filter_usable] at hch
  obtain ⟨ι, hι⟩ := exists_indexLaw (n := (placeable prims).length) (probs := probs) (by rintro rfl; exact hch)
    (by rintro p rfl; exact hch)
  have hg : ∀ i : Fin (placeable prims).length, ∃ g, ((placeable prims).get i).IsLaw n g := by
    intro i
    obtain ⟨h1, h2⟩ := List.mem_filter.mp (List.get_mem (placeable prims) i)
    generalize (placeable prims).get i = q at h1 h2 ⊢
    obtain ⟨u, hu⟩ := hfix q h1
    obtain ⟨k, -, -, hk, -⟩ := hprims q h1
    rw [hu] at hk
    unfold Primitive.IsLaw
    cases ha : q.allowedApplyTo with
    | none => exact ⟨_, u, hu, k, hk.dim, rfl⟩
    | some lists =>
      rw [ha] at h2
      have : NeZero lists.length := ⟨fun h0 => by simp [List.length_eq_zero_iff.mp h0] at h2⟩
      exact ⟨_, u, hu, _, Rng.HasLaw.isIndexLaw_uniform, rfl⟩
  choose g hg using hg
  exact ⟨_, ι, g, hι, hg, rfl⟩

theorem allowed_pos {threshold : Option ℝ} (h : ∀ x, threshold = some x → x < 1) : 0 < Metropolis.allowed threshold := by
  cases threshold with
  | none => norm_num [Metropolis.allowed]
  | some x => have := h x rfl; change 0 < 1 - x; linarith

theorem Drawable.exact {n : ℕ} {prims : List Primitive} (hprims : ∀ p ∈ prims, p.Valid n) {v : EntryVal}
    (h : Drawable (2 ^ n) prims v) : v.WF ∧ v.Fits n ∧ v.Exact := by
  obtain ⟨us, ns, h1, h2⟩ := h.yields
  obtain ⟨r, -, -, hr⟩ := Rng.delivers_exists us h1 0 0
  have := h2 r hr
  exact ⟨(generated_from ⟨r, _, this⟩).1, createRandomEntryVal_good hprims this⟩

/-- C76: with a universal set of gates, the compiler can find every target up to every threshold below 1: for every
sufficiently large limit on the number of steps there are outcomes of the random draws with which it succeeds. -/
theorem C76_can_succeed {C : Compiler} {n : ℕ} (hD : C.dimension = 2 ^ n) (hprims : ∀ p ∈ C.primitives, p.Valid n)
    (hT : C.Truthy) (hpr : C.probabilities = none) (h0 : 0 < C.appendProbability) (h1 : C.appendProbability ≤ 1)
    (hU : Universal n (Drawable (2 ^ n) C.primitives)) {target : Unitary} (ht : target.Exact (2 ^ n))
    {threshold : Option ℝ} (hth : ∀ x, threshold = some x → x < 1) :
    ∃ m0 : ℤ, ∀ m ≥ m0, ∃ us ns, Rng.InRange ns ∧ ∀ (c : Client) (Cs : List Compiler), Session 0 c Cs → C ∈ Cs →
      (∀ x ∈ c.world.entries, x.toVal.Exact) → c.world.rng.Delivers us ns →
      ∃ R w' v, C.compile 0 target threshold m c.world = (.ok R, w') ∧ w'.view R.sequence = some v ∧
        Metropolis.GoodEnough threshold (Metropolis.cost n (target.matrix.toMatrix (2 ^ n)) v.entries) := by
  obtain ⟨gates, g1, g2⟩ := hU _ ht.unitary (Metropolis.allowed threshold) (allowed_pos hth)
  refine ⟨gates.length, fun m hm => ?_⟩
  obtain ⟨us, ns, hr, h⟩ := C55_can_succeed hD hprims hT hpr h0 h1 ht (gates := gates)
    (fun v hv => by rw [hD]; exact g1 v hv) (threshold := threshold) (m := m)
    (Metropolis.goodEnough_of_le (cost_mem ht fun v hv => (g1 v hv).exact hprims).1 g2.le) hm
  refine ⟨us, ns, hr, fun c Cs hs hC hE hd => ?_⟩
  obtain ⟨R, w', v, a1, a2, -, a4⟩ := h c Cs hs hC hE hd
  exact ⟨R, w', v, a1, a2, a4⟩

/-- C76: with a universal set of gates without parameters, the probability that the compiler has not found the target
after `m` steps decreases exponentially with `m`, for every target and every threshold below 1. -/
theorem C76_compile_succeeds {n : ℕ} {prims : List Primitive} {probs : Option (List ℝ)} {p : ℝ}
    (hprims : ∀ q ∈ prims, q.Valid n) (hch : ChoiceOk prims probs) (hp : 0 < p ∧ p ≤ 1) {law : PMF EntryVal}
    (hlaw : IsGateLaw n prims probs law) (hU : Universal n (· ∈ law.support)) {target : Unitary}
    (ht : target.Exact (2 ^ n)) {threshold : Option ℝ} (hth : ∀ x, threshold = some x → x < 1) :
    ∃ (δ : ℝ) (K : ℕ), 0 < δ ∧ δ ≤ 1 ∧ 0 < K ∧ ∀ {c : Client} {Cs : List Compiler}, Session 0 c Cs →
      (∀ x ∈ c.world.entries, x.toVal.Exact) → ∀ {C : Compiler}, C ∈ Cs → C.dimension = 2 ^ n → C.primitives = prims →
      C.probabilities = probs → C.appendProbability = p → 0 ≤ C.annealingRate → C.Truthy →
      ∀ {B : ℕ}, n ≤ B → prims.length ≤ B →
      (∀ q ∈ prims, ∀ lists, q.allowedApplyTo = some lists → lists.length ≤ B) → ∀ m : ℕ,
        1 - ENNReal.ofReal ((1 - δ) ^ (m / K)) ≤ Rng.tapes B {t | Succeeds n target threshold
          (C.compile 0 target threshold m (c.world.reseed t))} := by
  obtain ⟨gates, g1, g2⟩ := hU _ ht.unitary (Metropolis.allowed threshold) (allowed_pos hth)
  exact C69_compile_succeeds hprims hch hp ht hlaw g1 g2

/-- All pairs of qubits are joined. -/
theorem connected_all {n : ℕ} {pair : ℕ → ℕ → Prop} (h : ∀ i < n, ∀ j < n, i ≠ j → pair i j) : Connected n pair := by
  intro i hi j hj
  by_cases e : i = j
  · rw [e]
  · exact Relation.ReflTransGen.single (Or.inl (h i hi j hj e))

theorem acts_default {n : ℕ} {u : Unitary ⊕ ParamUnitary} {qs : List ℕ} (h1 : qs.Nodup) (h2 : ∀ q ∈ qs, q < n) :
    (⟨u, none⟩ : Primitive).Acts n qs := ⟨h1, h2⟩

theorem rotationXY_valid {n : ℕ} (hn : 1 ≤ n) {xy : ParamUnitary} (h : ParamDefinitions.rotationXY 0 = .ok xy) :
    (⟨.inr xy, none⟩ : Primitive).Valid n := by
  have he := ParamDefinitions.rotationXY_eq 0
  rw [h] at he
  rw [Except.ok.inj he]
  refine ⟨1, le_rfl, hn, ⟨rfl, ?_, ?_⟩, trivial⟩
  · intro q hq
    have := Real.pi_pos
    simp only [List.mem_cons, List.not_mem_nil, or_false] at hq
    rcases hq with rfl | rfl <;> change (0 : ℝ) ≤ 2 * Real.pi <;> positivity
  · intro values hlen _
    obtain ⟨θ, φ, rfl⟩ := List.length_eq_two.mp hlen
    obtain ⟨u, h1, h2, h3, -⟩ := C27_rphi θ φ
    refine ⟨u.matrix, ?_, h3.2.1, h3.2.2.1, (mem_specialUnitaryGroup_iff.mp h3.2.2.2).1⟩
    change (do return (← UnitaryDefinitions.rphi 0 θ φ).getMatrix) = _
    rw [h1]
    rfl

theorem xx_valid {n : ℕ} (hn : 2 ≤ n) {ms : ParamUnitary} (h : ParamDefinitions.xx 0 = .ok ms) :
    (⟨.inr ms, none⟩ : Primitive).Valid n := by
  have he := ParamDefinitions.xx_eq 0
  rw [h] at he
  rw [Except.ok.inj he]
  refine ⟨2, by norm_num, hn, ⟨rfl, ?_, ?_⟩, trivial⟩
  · intro q hq
    have := Real.pi_pos
    rw [List.mem_singleton.mp hq]
    change (0 : ℝ) ≤ 2 * Real.pi
    positivity
  · intro values hlen _
    obtain ⟨θ, rfl⟩ := List.length_eq_one_iff.mp hlen
    obtain ⟨u, h1, h2, h3, -⟩ := C27_xx θ
    refine ⟨u.matrix, ?_, h3.2.1, h3.2.2.1, (mem_specialUnitaryGroup_iff.mp h3.2.2.2).1⟩
    change (do return (← UnitaryDefinitions.xx 0 θ).getMatrix) = _
    rw [h1]
    rfl

/-- C76: the compiler of the examples, with `rotation_xy` and `xx` on any qubits, can find every target on two or more
qubits up to every threshold below 1. -/
theorem C76_native_can_succeed {n : ℕ} (hn : 2 ≤ n) {xy ms : ParamUnitary} (hxy : ParamDefinitions.rotationXY 0 = .ok xy)
    (hms : ParamDefinitions.xx 0 = .ok ms) {C : Compiler} (hD : C.dimension = 2 ^ n)
    (hC : C.primitives = [⟨.inr xy, none⟩, ⟨.inr ms, none⟩]) (hT : C.Truthy) (hpr : C.probabilities = none)
    (h0 : 0 < C.appendProbability) (h1 : C.appendProbability ≤ 1) {target : Unitary} (ht : target.Exact (2 ^ n))
    {threshold : Option ℝ} (hth : ∀ x, threshold = some x → x < 1) :
    ∃ m0 : ℤ, ∀ m ≥ m0, ∃ us ns, Rng.InRange ns ∧ ∀ (c : Client) (Cs : List Compiler), Session 0 c Cs → C ∈ Cs →
      (∀ x ∈ c.world.entries, x.toVal.Exact) → c.world.rng.Delivers us ns →
      ∃ R w' v, C.compile 0 target threshold m c.world = (.ok R, w') ∧ w'.view R.sequence = some v ∧
        Metropolis.GoodEnough threshold (Metropolis.cost n (target.matrix.toMatrix (2 ^ n)) v.entries) := by
  have hv : ∀ p ∈ C.primitives, p.Valid n := by
    rw [hC]
    intro p hp
    simp only [List.mem_cons, List.not_mem_nil, or_false] at hp
    rcases hp with rfl | rfl
    · exact rotationXY_valid (by omega) hxy
    · exact xx_valid hn hms
  refine C76_can_succeed hD hv hT hpr h0 h1 ?_ ht hth
  rw [hC] at hv ⊢
  exact C76_native_universal hxy hms hv
    (fun i hi => ⟨_, List.mem_cons_self, rfl, acts_default (by simp) (by simpa using hi)⟩)
    (connected_all fun i hi j hj hij => ⟨_, List.mem_cons_of_mem _ List.mem_cons_self, rfl,
      acts_default (by simpa using hij) (by simp [hi, hj])⟩)

/-- C76: a compiler with Hadamard, T and controlled not on any qubits finds every target on two or more qubits up to
every threshold below 1 with a probability that tends to one exponentially with the number of steps. -/
theorem C76_clifford_t_succeeds {n : ℕ} (hn : 2 ≤ n) {uh ut uc : Unitary} (huh : h 0 = .ok uh) (hut : t 0 = .ok ut)
    (huc : cnot 0 = .ok uc) {p : ℝ} (hp : 0 < p ∧ p ≤ 1) {target : Unitary} (ht : target.Exact (2 ^ n))
    {threshold : Option ℝ} (hth : ∀ x, threshold = some x → x < 1) :
    ∃ (δ : ℝ) (K : ℕ), 0 < δ ∧ δ ≤ 1 ∧ 0 < K ∧ ∀ {c : Client} {Cs : List Compiler}, Session 0 c Cs →
      (∀ x ∈ c.world.entries, x.toVal.Exact) → ∀ {C : Compiler}, C ∈ Cs → C.dimension = 2 ^ n →
      C.primitives = [⟨.inl uh, none⟩, ⟨.inl ut, none⟩, ⟨.inl uc, none⟩] →
      C.probabilities = none → C.appendProbability = p → 0 ≤ C.annealingRate → C.Truthy →
      ∀ {B : ℕ}, n ≤ B → 3 ≤ B → ∀ m : ℕ,
        1 - ENNReal.ofReal ((1 - δ) ^ (m / K)) ≤ Rng.tapes B {t | Succeeds n target threshold
          (C.compile 0 target threshold m (c.world.reseed t))} := by
  have hvh : uh.Exact 2 := by
    obtain ⟨u, e, h1, -⟩ := C27_hadamard; rw [huh] at e; rw [Except.ok.inj e]; exact h1
  have hvt : ut.Exact 2 := by
    obtain ⟨u, e, h1, -⟩ := C27_t; rw [hut] at e; rw [Except.ok.inj e]; exact h1
  have hvc : uc.Exact 4 := by
    obtain ⟨u, e, h1, -⟩ := C27_cnot; rw [huc] at e; rw [Except.ok.inj e]; exact h1
  have hv : ∀ q ∈ ([⟨.inl uh, none⟩, ⟨.inl ut, none⟩, ⟨.inl uc, none⟩] : List Primitive), q.Valid n := by
    intro q hq
    simp only [List.mem_cons, List.not_mem_nil, or_false] at hq
    rcases hq with rfl | rfl | rfl
    · exact ⟨1, le_rfl, by omega, hvh, trivial⟩
    · exact ⟨1, le_rfl, by omega, hvt, trivial⟩
    · exact ⟨2, by norm_num, hn, hvc, trivial⟩
  have hch : ChoiceOk ([⟨.inl uh, none⟩, ⟨.inl ut, none⟩, ⟨.inl uc, none⟩] : List Primitive) none := by
    simp [ChoiceOk, usable]
  obtain ⟨law, hlaw⟩ := exists_gateLaw hch hv (by
    intro q hq
    simp only [List.mem_cons, List.not_mem_nil, or_false] at hq
    rcases hq with rfl | rfl | rfl <;> exact ⟨_, rfl⟩)
  have hpl : placeable ([⟨.inl uh, none⟩, ⟨.inl ut, none⟩, ⟨.inl uc, none⟩] : List Primitive) =
      [⟨.inl uh, none⟩, ⟨.inl ut, none⟩, ⟨.inl uc, none⟩] := by simp [placeable]
  have hoff : ∀ (i : ℕ) (u : Unitary) (qs : List ℕ),
      ([⟨.inl uh, none⟩, ⟨.inl ut, none⟩, ⟨.inl uc, none⟩] : List Primitive)[i]? = some ⟨.inl u, none⟩ → qs.Nodup →
      (∀ q ∈ qs, q < n) → Offered n [⟨.inl uh, none⟩, ⟨.inl ut, none⟩, ⟨.inl uc, none⟩] none u qs :=
    fun i u qs h1 h2 h3 => ⟨i, _, by rw [hpl]; exact h1, by simp, rfl, acts_default h2 h3⟩
  have hU := C76_clifford_t_universal hch hv hlaw huh hut huc
    (fun i hi => ⟨hoff 0 _ _ rfl (by simp) (by simpa using hi), hoff 1 _ _ rfl (by simp) (by simpa using hi)⟩)
    (connected_all fun i hi j hj hij => hoff 2 _ _ rfl (by simpa using hij) (by simp [hi, hj]))
  obtain ⟨δ, K, h1, h2, h3, h4⟩ := C76_compile_succeeds hv hch hp hlaw hU ht hth
  refine ⟨δ, K, h1, h2, h3, fun {c Cs} hs hex {C} hC hD hCp hpr hap hrate hT {B} hB hB3 m => ?_⟩
  refine h4 hs hex hC hD hCp hpr hap hrate hT hB hB3 (fun q hq lists hl => ?_) m
  simp only [List.mem_cons, List.not_mem_nil, or_false] at hq
  rcases hq with rfl | rfl | rfl <;> cases hl

/-! ## Examples -/

/-- C76: in a session that makes this compiler for two qubits, every target is found up to an overlap of 0.999 with
probability at least 0.99, if enough steps are allowed. -/
example (rng : Rng) {target : Unitary} (ht : target.Exact (2 ^ 2)) : ∃ (c : Client) (C : Compiler) (m0 : ℕ),
    Session 0 c [C] ∧ c.world.rng = rng ∧ C.primitives.length = 3 ∧ ∀ m ≥ m0,
      1 - ENNReal.ofReal (1 / 100) ≤ Rng.tapes 3 {t | Succeeds 2 target (some (999 / 1000))
        (C.compile 0 target (some (999 / 1000)) m (c.world.reseed t))} := by
  obtain ⟨uh, huh, h1, -⟩ := C27_hadamard
  obtain ⟨ut, hut, h2, -⟩ := C27_t
  obtain ⟨uc, huc, h3, -⟩ := C27_cnot
  have hs := Session.newCompiler 4 [⟨.inl uh, none⟩, ⟨.inl ut, none⟩, ⟨.inl uc, none⟩] false none (1 / 2) 1
    (Session.start (τ := 0) rng) (new_compiler_ok false none (1 / 2) 1 (by norm_num) (by
      intro q hq
      simp only [List.mem_cons, List.not_mem_nil, or_false] at hq
      rcases hq with rfl | rfl | rfl <;> simp [Primitive.getDimension, h1.dim, h2.dim, h3.dim]) _)
  obtain ⟨δ, K, g1, g2, g3, g4⟩ := C76_clifford_t_succeeds (n := 2) le_rfl huh hut huc (p := 1 / 2) (by norm_num) ht
    (threshold := some (999 / 1000)) (by rintro x ⟨⟩; norm_num)
  obtain ⟨m0, hm0⟩ := C69_enough_steps g1 g2 g3 (fun m => g4 hs (by simp [Client.start]) List.mem_cons_self rfl rfl rfl rfl
    zero_le_one ⟨by simp, by simp⟩ (B := 3) (by norm_num) le_rfl m) (ε := 1 / 100) (by norm_num)
  exact ⟨_, _, m0, hs, rfl, rfl, hm0⟩

/-- C76: in a session that makes the compiler of the examples for three qubits, the hypotheses hold. -/
example (rng : Rng) {target : Unitary} (ht : target.Exact (2 ^ 3)) : ∃ (c : Client) (C : Compiler), Session 0 c [C] ∧
    c.world.rng = rng ∧ C.primitives.length = 2 ∧ ∃ m0 : ℤ, ∀ m ≥ m0, ∃ us ns, Rng.InRange ns ∧
      (rng.Delivers us ns → ∃ R w' v, C.compile 0 target (some (999 / 1000)) m c.world = (.ok R, w') ∧
        w'.view R.sequence = some v ∧
        1 - overlap (target.matrix.toMatrix (2 ^ 3)) (circuit 3 v.entries) ≤ 1 - 999 / 1000) := by
  obtain ⟨⟨xy, hxy, d1, -⟩, -, ⟨ms, hms, d2, -⟩⟩ := C27_parameterized
  have hs := Session.newCompiler 8 [⟨.inr xy, none⟩, ⟨.inr ms, none⟩] false none (1 / 2) 1
    (Session.start (τ := 0) rng) (new_compiler_ok false none (1 / 2) 1 (by norm_num) (by
      intro q hq
      simp only [List.mem_cons, List.not_mem_nil, or_false] at hq
      rcases hq with rfl | rfl <;> simp [Primitive.getDimension, d1, d2]) _)
  obtain ⟨m0, hm0⟩ := C76_native_can_succeed (n := 3) (by norm_num) hxy hms
    (C := ⟨8, [⟨.inr xy, none⟩, ⟨.inr ms, none⟩], false, none, ((2 : ℝ) ^ 8) ^ 2, 1, 1 / 2, 0⟩) rfl rfl
    ⟨by simp, by simp⟩ rfl (by norm_num) (by norm_num) ht (threshold := some (999 / 1000)) (by rintro x ⟨⟩; norm_num)
  refine ⟨_, _, hs, rfl, rfl, m0, fun m hm => ?_⟩
  obtain ⟨us, ns, hr, h⟩ := hm0 m hm
  exact ⟨us, ns, hr, fun hd => h _ _ hs List.mem_cons_self (by simp [Client.start]) hd⟩

end Stoq
