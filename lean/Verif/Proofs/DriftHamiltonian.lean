import Verif.Spec.DriftHamiltonian
import Verif.Props.DriftLibrary
import Verif.Props.TrotterLimit

/-! # Gates on all qubits and the outcome of making a sequence, with the clean-up -/

namespace Stoq

open World Matrix UnitaryDefinitions

/-! ## Norms -/

section norms

open scoped Matrix.Norms.L2Operator

variable {n : ℕ} {Ms : List (Matrix (Fin (2 ^ n)) (Fin (2 ^ n)) ℂ)} {H : Hamiltonian}

theorem Hamiltonian.Of.norm_eq (hH : H.Of Ms) {M : Matrix (Fin (2 ^ n)) (Fin (2 ^ n)) ℂ} (hM : M ∈ Ms) :
    ‖M‖ = maxAbsEigenvalue M := (maxAbsEigenvalue_eq (Nat.two_pow_pos n) (hH.herm M hM).1).symm

theorem Hamiltonian.Of.norm_map (hH : H.Of Ms) : Ms.map maxAbsEigenvalue = Ms.map (‖·‖) :=
  List.map_congr_left fun _ hM => (hH.norm_eq hM).symm

theorem norm_list_sum_le {d : ℕ} (l : List (Matrix (Fin d) (Fin d) ℂ)) : ‖l.sum‖ ≤ (l.map (‖·‖)).sum := by
  induction l with
  | nil => simp
  | cons a l ih =>
    rw [List.sum_cons, List.map_cons, List.sum_cons]
    exact (norm_add_le _ _).trans (add_le_add le_rfl ih)

theorem Hamiltonian.Of.norm_total (hH : H.Of Ms) : ‖Ms.sum‖ ≤ (Ms.map maxAbsEigenvalue).sum := by
  rw [hH.norm_map]; exact norm_list_sum_le Ms

theorem Hamiltonian.Of.norm_term (hH : H.Of Ms) {M : Matrix (Fin (2 ^ n)) (Fin (2 ^ n)) ℂ} (hM : M ∈ Ms) :
    ‖M‖ ≤ (Ms.map maxAbsEigenvalue).sum := by
  rw [hH.norm_map]
  exact List.single_le_sum (by simp) _ (List.mem_map_of_mem hM)

theorem Hamiltonian.Of.norm_subset (hH : H.Of Ms) {b : Bool} {s : List ℕ} (hs : s ∈ H.termSubsets b) :
    ‖(s.map fun i => Ms.getD i 0).sum‖ ≤ (Ms.map maxAbsEigenvalue).sum := by
  have hsub : s.Sublist (List.range Ms.length) := by
    rw [← hH.length]
    unfold Hamiltonian.termSubsets at hs
    cases b
    · rw [if_neg (by simp)] at hs
      obtain ⟨i, hi, rfl⟩ := List.mem_map.mp hs
      exact List.singleton_sublist.mpr hi
    · rw [if_pos rfl] at hs
      obtain ⟨k, hk, hs⟩ := List.mem_flatMap.mp hs
      exact (mem_combinations.mp hs).1
  have hall : (List.range Ms.length).map (fun i => ‖Ms.getD i 0‖) = Ms.map (‖·‖) := by
    refine List.ext_getElem (by simp) fun i h1 h2 => ?_
    have hi : i < Ms.length := by simpa using h2
    simp [List.getElem?_eq_getElem hi]
  rw [hH.norm_map, ← hall]
  refine (norm_list_sum_le _).trans ?_
  rw [List.map_map]
  exact (hsub.map _).sum_le_sum (by simp)

theorem Hamiltonian.Of.norm_normalised (hH : H.Of Ms) {M : Matrix (Fin (2 ^ n)) (Fin (2 ^ n)) ℂ} (hM : M ∈ Ms) :
    ‖normalised M‖ = 1 := by
  have h := (hH.herm M hM).2
  unfold normalised
  rw [norm_smul, Complex.norm_real, hH.norm_eq hM, Real.norm_of_nonneg (by positivity), one_div, inv_mul_cancel₀ h.ne']

theorem abs_div_int_le (t : ℝ) (N : ℤ) : |t / N| ≤ |t| := by
  rw [abs_div]
  by_cases hN : N = 0
  · simp [hN]
  · refine div_le_self (abs_nonneg t) ?_
    exact_mod_cast Int.one_le_abs hN

theorem Hamiltonian.Of.reach (hH : H.Of Ms) {t x y : ℝ} (ht : |t| * (Ms.map maxAbsEigenvalue).sum ≤ 100) (hx : |x| ≤ |t|)
    (hy : y ≤ (Ms.map maxAbsEigenvalue).sum) : |x| * y ≤ 100 :=
  le_trans (by
    have := hH.lambda_pos
    exact (mul_le_mul_of_nonneg_left hy (abs_nonneg _)).trans (mul_le_mul_of_nonneg_right hx this.le)) ht

end norms

/-! ## Gates on all qubits -/

open scoped Matrix.Norms.L2Operator

/-- The gate that acts on all qubits by `V`. -/
def Gate.full (n : ℕ) (V : Matrix (Fin (2 ^ n)) (Fin (2 ^ n)) ℂ) : Gate :=
  ⟨List.range n, V.submatrix (Fin.cast (by rw [List.length_range])) (Fin.cast (by rw [List.length_range]))⟩

theorem Unitary.near_cast {d d' : ℕ} (h : d' = d) {u : Unitary} {V : Matrix (Fin d) (Fin d) ℂ} {ε : ℝ} :
    u.Near (V.submatrix (Fin.cast h) (Fin.cast h)) ε ↔ u.Near V ε := by
  subst h; rfl

theorem unitary_cast {d d' : ℕ} (h : d' = d) {V : Matrix (Fin d) (Fin d) ℂ} (hV : V ∈ unitaryGroup (Fin d) ℂ) :
    V.submatrix (Fin.cast h) (Fin.cast h) ∈ unitaryGroup (Fin d') ℂ := by
  subst h; exact hV

variable {n : ℕ} {τ : Arith} {δ : ℝ}

theorem Gate.full_ok (hn : 1 ≤ n) {V : Matrix (Fin (2 ^ n)) (Fin (2 ^ n)) ℂ} (hV : V ∈ unitaryGroup (Fin (2 ^ n)) ℂ) :
    (Gate.full n V).Ok n where
  nodup := List.nodup_range
  nonempty := by
    intro h
    have := congrArg List.length h
    simp [Gate.full] at this
    omega
  fits q hq := List.mem_range.mp hq
  unitary := unitary_cast (by simp [Gate.full]) hV

theorem Gate.full_op (V : Matrix (Fin (2 ^ n)) (Fin (2 ^ n)) ℂ) : (Gate.full n V).op n = V := by
  ext r c
  have hag : AgreeOff n (List.range n) r c := fun q hq hn => absurd (List.mem_range.mpr hq) hn
  change (if AgreeOff n (List.range n) r c then V _ _ else 0) = V r c
  rw [if_pos hag]
  have e : ∀ (i : Fin (2 ^ n)) (h : gather n (List.range n) i < 2 ^ n), (⟨gather n (List.range n) i, h⟩ : Fin (2 ^ n)) = i := by
    intro i h
    ext
    simp [gather_range le_rfl i.isLt]
  exact congrArg₂ V (e r _) (e c _)

theorem gateProduct_full (Vs : List (Matrix (Fin (2 ^ n)) (Fin (2 ^ n)) ℂ)) :
    gateProduct n (Vs.map (Gate.full n)) = Vs.reverse.prod := by
  induction Vs with
  | nil => rfl
  | cons V Vs ih =>
    rw [List.map_cons, gateProduct, ih, Gate.full_op, List.reverse_cons, List.prod_append, List.prod_singleton]

theorem EvolvesNear.realises {ε : ℝ} {s : String} {M : Matrix (Fin (2 ^ n)) (Fin (2 ^ n)) ℂ} {t : ℝ} {e : EntryVal}
    (h : EvolvesNear n ε s M t e) : e.Realises (Gate.full n (evolution M t)) ε :=
  ⟨h.qubits, (Unitary.near_cast _).mpr h.near⟩

theorem EvolvesNear.of (hn : 1 ≤ n) (hτ : τ.Accurate (2 ^ n) δ) (hlim : 3 * 2 ^ n * δ ≤ driftLimit) {h : Arr}
    {M : Matrix (Fin (2 ^ n)) (Fin (2 ^ n)) ℂ} (hh : h.Is M) (hM : M.IsHermitian) {t : ℝ} (ht : |t| * ‖M‖ ≤ 100) (s : String) :
    ∃ u, timeEvolution τ h t s = .ok u ∧ EntryVal.new u ((List.range n).map Int.ofNat) = .ok ⟨u, List.range n⟩ ∧
      EvolvesNear n (3 * 2 ^ n * δ) s M t ⟨u, List.range n⟩ := by
  rw [← cast_two_pow] at hlim ⊢
  obtain ⟨u, h1, h2, h3, h4, h5⟩ := C62_evolution (Nat.two_pow_pos n) hτ hlim hh hM ht s
  exact ⟨u, h1, entry_new_ok (by intro h; have := congrArg List.length h; simp at this; omega) List.nodup_range
    (by rw [h2.dim, List.length_range]), rfl, h2, h3, h4, h5⟩

/-! ## Making a sequence -/

/-- The call made the new sequence `s` with the gates `es`, and its product is `M` up to `δ`. -/
structure BuildsNear (n : ℕ) (τ : Arith) (δ : ℝ) (es : List EntryVal) (M : Matrix (Fin (2 ^ n)) (Fin (2 ^ n)) ℂ) (w : World)
    (s : SRef) (w' : World) : Prop where
  new : w.view s = none
  view : w'.view s = some ⟨2 ^ n, false, es, none⟩
  product : ∃ p, (Seq.product τ s w').1 = .ok p ∧ p.Near M δ

theorem buildsNear_of_post {ε : ℝ} {G : EntryVal → Prop} {fresh : PyM Rng (List EntryVal)} {w : World}
    {out : Except PyErr SRef × World} (hp : BuildPost τ G fresh (2 ^ n) w out.1 out.2) (hn : 1 ≤ n)
    {vs : List EntryVal} {r : Rng} (hf : fresh w.rng = (.ok vs, r)) {k : ℕ} (hb : Budget n τ δ ε k)
    {ps : List (Matrix (Fin (2 ^ n)) (Fin (2 ^ n)) ℂ × ℝ)} (hk : ps.length ≤ k) (hps : ∀ p ∈ ps, p.1.IsHermitian)
    (hvs : List.Forall₂ (fun e p => ∃ s, EvolvesNear n ε s p.1 p.2 e) vs ps) :
    ∃ s w', out = (.ok s, w') ∧
      BuildsNear n τ (driftErr n δ ε k) vs ((ps.map fun p => evolution p.1 p.2).reverse.prod) w s w' ∧ w'.rng = r := by
  have hgok : ∀ g ∈ (ps.map fun p => evolution p.1 p.2).map (Gate.full n), g.Ok n := by
    intro g hg
    rw [List.map_map] at hg
    obtain ⟨p, hp, rfl⟩ := List.mem_map.mp hg
    exact Gate.full_ok hn (evolution_unitary (hps p hp) _)
  have hre : RealisesAll ε vs ((ps.map fun p => evolution p.1 p.2).map (Gate.full n)) := by
    unfold RealisesAll
    rw [List.map_map, List.forall₂_map_right_iff]
    exact hvs.imp fun e p ⟨s, h⟩ => h.realises
  have hfit : ∀ v ∈ vs, v.Fits n := by
    intro v hv
    obtain ⟨i, hi⟩ := List.mem_iff_getElem?.mp hv
    rcases forall₂_getElem? hvs i with ⟨h, -⟩ | ⟨a, b, h, -, s, hE⟩
    · rw [h] at hi; cases hi
    · rw [h] at hi; cases hi
      intro q hq
      rw [hE.qubits] at hq
      exact List.mem_range.mp hq
  have h1 := hp.fits n vs rfl (by rw [hf]) hfit
  obtain ⟨h2, vs', rs, h3, -, h4, h5⟩ := hp.ok _ h1
  rw [hf] at h3
  cases h3
  refine ⟨w.seqs.length, out.2, Prod.ext h1 rfl, ⟨?_, ?_, ?_⟩, by rw [hp.rng, hf]⟩
  · unfold World.view
    rw [List.getElem?_eq_none le_rfl]; rfl
  · exact view_eq_some.mpr ⟨_, h4, by rw [viewOf]; simp [h5]⟩
  · have hx : DriftOk n δ ε k out.2.entries ⟨2 ^ n, false, rs, none, none, none⟩
        ((ps.map fun p => evolution p.1 p.2).map (Gate.full n)) none :=
      ⟨rfl, by rw [h5]; exact hre, hgok, by simpa using hk, fun p hp => (by cases hp), .none,
        fun _ h => (by cases h), fun p hp => (by cases hp), fun _ => rfl⟩
    have hpr := product_drift hx hb hp.safe.wf h4
    rw [Wp] at hpr
    obtain ⟨o3, p, -, k1, k2, -⟩ := hpr
    rw [gateProduct_full] at k2
    exact ⟨p, k1, k2⟩

/-- The distance to a time evolution operator that is measured for a product with error. -/
theorem distance_evolution_near {ε : ℝ} (hε : 3 * 2 ^ n * δ ≤ ε) {k : ℕ} (hb : Budget n τ δ ε (k + 1)) {p U : Unitary}
    {A B : Matrix (Fin (2 ^ n)) (Fin (2 ^ n)) ℂ} (hp : p.Near A (driftErr n δ ε k)) (hU : U.Near B (3 * 2 ^ n * δ))
    (hA : A ∈ unitaryGroup (Fin (2 ^ n)) ℂ) (hB : B ∈ unitaryGroup (Fin (2 ^ n)) ℂ) :
    ∃ x, p.distanceFrom τ U = .ok x ∧ |x - (1 - overlap A B)| ≤ driftErr n δ ε (k + 2) := by
  have hle := driftErr_add hb
  obtain ⟨x, h1, h2⟩ := Unitary.distanceFrom_near (Nat.two_pow_pos n) hb.tau hp hU hA hB
    (by rw [cast_two_pow]; exact hle.trans hb.lim)
    (by
      have h6 := hb.step; have h7 := two_pow_tau_nonneg n hb.t0
      unfold stepErr driftLimit at h6; linarith [hb.eps])
  refine ⟨x, h1, h2.trans ?_⟩
  rw [cast_two_pow]
  have h0 := two_pow_tau_nonneg n hb.t0
  have h3 := driftErr_nonneg (n := n) (k := k + 1) hb.t0 hb.eps
  have h4 : driftErr n δ ε (k + 2) = (1 + driftErr n δ ε (k + 1)) * (1 + stepErr n δ ε) - 1 := by
    unfold driftErr; rw [show k + 2 = (k + 1) + 1 from rfl, pow_succ]; ring
  rw [h4]
  have h5 : 3 * 2 ^ n * δ ≤ stepErr n δ ε := by unfold stepErr; linarith
  have : (1 + (driftErr n δ ε k + 3 * 2 ^ n * δ)) * (1 + 3 * 2 ^ n * δ) ≤
      (1 + driftErr n δ ε (k + 1)) * (1 + stepErr n δ ε) := by
    apply mul_le_mul <;> linarith
  linarith

end Stoq
