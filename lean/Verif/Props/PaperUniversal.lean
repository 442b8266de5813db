import Verif.Props.Several
import Verif.Props.Steps
import Verif.Proofs.PaperGates
import Verif.Props.Universal

/-!
# C98: the gates of the paper's experiments are universal for every maximal angle
-/

namespace Stoq

open Matrix Complex Noise Paper
open scoped Matrix.Norms.L2Operator

namespace Paper

theorem rot_pow {ι : Type} [Fintype ι] [DecidableEq ι] {P : Matrix ι ι ℂ} (hP : P * P = 1) (θ : ℝ) (k : ℕ) :
    Gate.rot P θ ^ k = Gate.rot P (k * θ) := by
  induction k with
  | zero => simp [Gate.rot_zero]
  | succ k ih => rw [pow_succ, ih, Gate.rot_add hP]; congr 1; push_cast; ring

theorem site_pow {n i : ℕ} (hi : i < n) (A : Matrix (Fin 2) (Fin 2) ℂ) (k : ℕ) : site n i A ^ k = site n i (A ^ k) := by
  induction k with
  | zero => rw [pow_zero, pow_zero]; exact (embed_one (a := [i]) (by simp) (by simpa using hi)).symm
  | succ k ih => rw [pow_succ, ih, pow_succ, site_mul hi]

theorem duo_pow {n i j : ℕ} (hij : i ≠ j) (hi : i < n) (hj : j < n) (A : Matrix (Fin 4) (Fin 4) ℂ) (k : ℕ) :
    duo n i j A ^ k = duo n i j (A ^ k) := by
  induction k with
  | zero => rw [pow_zero, pow_zero]; exact (embed_one (a := [i, j]) (by simpa using hij) (by simp [hi, hj])).symm
  | succ k ih => rw [pow_succ, ih, pow_succ, duo_mul hij hi hj]

theorem ms4_zero (θ : ℝ) : ms4 0 θ = Gate.rot Gate.XX θ := by
  have e0 : (finProdFinEquiv (m := 2) (n := 2)).symm 0 = (0, 0) := by decide
  have e1 : (finProdFinEquiv (m := 2) (n := 2)).symm 1 = (0, 1) := by decide
  have e2 : (finProdFinEquiv (m := 2) (n := 2)).symm 2 = (1, 0) := by decide
  have e3 : (finProdFinEquiv (m := 2) (n := 2)).symm 3 = (1, 1) := by decide
  rw [Gate.rot, Gate.XX_eq]
  ext i j
  rw [ms4, submatrix_apply, turn2, Gate.rot]
  fin_cases i <;> fin_cases j <;>
    simp only [Fin.zero_eta, Fin.mk_one, Fin.reduceFinMk, e0, e1, e2, e3] <;> simp [axis, Gate.X, Gate.Y]

/-- Small enough parts of an angle. -/
theorem exists_part {m : ℝ} (hm : 0 < m) {θ : ℝ} (hθ : 0 ≤ θ) : ∃ (k : ℕ) (t : ℝ), 0 ≤ t ∧ t < m ∧ k * t = θ := by
  obtain ⟨k, hk⟩ := exists_nat_gt (θ / m)
  have h0 : (0 : ℝ) < k := lt_of_le_of_lt (by positivity) hk
  refine ⟨k, θ / k, by positivity, ?_, by field_simp⟩
  rw [div_lt_iff₀ h0]
  rw [div_lt_iff₀ hm] at hk
  linarith

end Paper

/-- C98: with `R` and `MS` on all qubits and pairs of qubits, with rotations by at most any `m > 0`, one comes as close to
every unitary matrix as desired. -/
theorem C98_universal {n : ℕ} {m m' : ℝ} (hm : 0 < m) (hm' : 0 < m') {r s : Primitive} (hr : qscoutR n m = .ok r)
    (hs : qscoutMs n m' = .ok s) {P : EntryVal → Prop} (h1 : ∀ v, CanDraw n [r] none v → P v)
    (h2 : ∀ v, CanDraw n [s] none v → P v) : Universal n P := by
  rw [qscoutR_eq hm.le, Except.ok.injEq] at hr
  rw [qscoutMs_eq hm'.le, Except.ok.injEq] at hs
  subst hr hs
  have hpi := Real.pi_pos
  have hR : ∀ i < n, ∀ φ, -Real.pi ≤ φ → φ < Real.pi → ∀ θ, 0 ≤ θ →
      Approximated (gateSet n P) (site n i (turn φ θ)) := by
    intro i hi φ a1 a2 θ hθ
    obtain ⟨k, t, t0, t1, rfl⟩ := exists_part hm hθ
    rw [show turn φ (k * t) = turn φ t ^ k from (rot_pow (Gate.axis_sq φ) t k).symm, ← site_pow hi]
    refine Approximated.pow ?_ k
    have hop : (⟨⟨asArr (turn φ t), "R", [("Φ", (φ, true)), ("θ", (t, true))], false, []⟩, [i]⟩ : EntryVal).op n =
        site n i (turn φ t) := by
      change embed n [i] ((asArr (turn φ t)).toMatrix 2) = _
      rw [(asArr_is _).2.2]; rfl
    rw [← hop]
    refine Approximated.gate (h1 _ ⟨_, selectable_single (connectivity1_ne (by omega)), ⟨[φ, t], rfl, ?_,
      rUnitary_as ⟨a1, a2.le⟩ ⟨by linarith, t1.le⟩⟩, mem_connectivity1.mpr ⟨i, hi, rfl⟩, by simp, rfl, by simp⟩) ?_
    · intro qv hqv
      simp only [rUnitary, List.zip_cons_cons, List.zip_nil_right, List.mem_cons, List.not_mem_nil, or_false] at hqv
      rcases hqv with rfl | rfl
      · exact ⟨a1, .inl a2⟩
      · exact ⟨by simp only; linarith, .inl t1⟩
    · rw [hop]
      exact rot_site_unitary hi (turn_unitary φ t)
  have hX : ∀ i < n, Generating (gateSet n P) (site n i Gate.X) := fun i hi =>
    Generating.of_rot hi Gate.X_ct Gate.X_sq fun θ a1 a2 => by
      have := hR i hi 0 (by linarith) (by linarith) θ a1
      simpa [turn, axis] using this
  have hY : ∀ i < n, Generating (gateSet n P) (site n i Gate.Y) := fun i hi =>
    Generating.of_rot hi Gate.Y_ct Gate.Y_sq fun θ a1 a2 => by
      have := hR i hi (Real.pi / 2) (by linarith) (by linarith) θ a1
      rw [turn, axis, Real.cos_pi_div_two, Real.sin_pi_div_two] at this
      simpa using this
  have hXX : ∀ a b, (a ≠ b ∧ a < n ∧ b < n) → Generating (gateSet n P) (site n a Gate.X * site n b Gate.X) := by
    rintro a b ⟨hab, ha, hb⟩
    refine Generating.of_xx hab ha hb fun θ a1 a2 => ?_
    obtain ⟨k, t, t0, t1, ht⟩ := exists_part hm' (show 0 ≤ 2 * θ by linarith)
    rw [← ht, ← rot_pow Gate.XX_sq, ← duo_pow hab ha hb]
    refine Approximated.pow ?_ k
    have hop : (⟨⟨asArr (ms4 0 t), "MS", [("Φ", (0, true)), ("θ", (t, true))], false, []⟩, [a, b]⟩ : EntryVal).op n =
        duo n a b (Gate.rot Gate.XX t) := by
      change embed n [a, b] ((asArr (ms4 0 t)).toMatrix 4) = _
      rw [(asArr_is _).2.2, ms4_zero]; rfl
    rw [← hop]
    refine Approximated.gate (h2 _ ⟨_, selectable_single (connectivity2_ne (by omega)), ⟨[0, t], rfl, ?_,
      msUnitary_as ⟨by linarith, hpi.le⟩ ⟨by linarith, t1.le⟩⟩, mem_connectivity2.mpr ⟨a, ha, b, hb, hab, rfl⟩,
      by simpa using hab, rfl, by simp⟩) ?_
    · intro qv hqv
      simp only [msUnitary, List.zip_cons_cons, List.zip_nil_right, List.mem_cons, List.not_mem_nil, or_false] at hqv
      rcases hqv with rfl | rfl
      · exact ⟨by simp only; linarith, .inl hpi⟩
      · exact ⟨by simp only; linarith, .inl t1⟩
    · rw [hop]
      exact duo_unitary hab ha hb (mem_specialUnitaryGroup_iff.mp (Gate.rot_XX_su t)).1
  refine universal_of_approximated fun T hT => approximated_of_gates hX hY
    (connected_generating (pair := fun a b => a ≠ b ∧ a < n ∧ b < n) (connected_all fun i hi j hj hij => ⟨hij, hi, hj⟩)
      (fun a b h => h) hXX) hT

/-- What the theorems on layered compilation assume holds for the layers of the experiments. -/
theorem Paper.layers_facts {n : ℕ} (hn : 2 ≤ n) {m : ℝ} (hm : 0 < m) {r z s : Primitive} (hr : qscoutR n m = .ok r)
    (hz : qscoutRz n m = .ok z) (hs : qscoutMs n m = .ok s) {a b d : ℕ} (ha : 0 < a) (hd : 0 < d) {B : ℕ} (hB : n * n ≤ B)
    {counts : List (Primitive × ℤ)} (hc : counts = [(r, (a : ℤ)), (z, (b : ℤ)), (s, (d : ℤ))]) :
    (∀ pc ∈ counts, pc.1.Valid n) ∧ (∀ pc ∈ counts, 0 ≤ pc.2) ∧
    (∀ pc ∈ counts, 0 < pc.2 → pc.1.allowedApplyTo ≠ some [] ∧ pc.1.Continuous) ∧
    (∀ T ∈ unitaryGroup (Fin (2 ^ n)) ℂ, ∀ ε > 0, ∃ layers : List (List EntryVal),
      (∀ l ∈ layers, CanDrawLayer n counts l) ∧ 1 - overlap T (circuit n layers.flatten) < ε) ∧
    (∀ pc ∈ counts, ∀ lists, pc.1.allowedApplyTo = some lists → lists.length ≤ B) := by
  subst hc
  have hall : ∀ {Q : Primitive × ℤ → Prop}, Q (r, (a : ℤ)) → Q (z, (b : ℤ)) → Q (s, (d : ℤ)) →
      ∀ pc ∈ ([(r, (a : ℤ)), (z, (b : ℤ)), (s, (d : ℤ))] : List (Primitive × ℤ)), Q pc := by
    intro Q h1 h2 h3 pc hpc
    simp only [List.mem_cons, List.not_mem_nil, or_false] at hpc
    rcases hpc with rfl | rfl | rfl
    exacts [h1, h2, h3]
  have hnB : n ≤ B := (Nat.le_mul_self n).trans hB
  have hU := C98_universal (P := fun v => ∃ pc ∈ ([(r, (a : ℤ)), (z, (b : ℤ)), (s, (d : ℤ))] : List (Primitive × ℤ)),
      0 < pc.2 ∧ CanDraw n [pc.1] none v) hm hm hr hs
    (fun v hv => ⟨_, List.mem_cons_self, Int.natCast_pos.mpr ha, hv⟩)
    (fun v hv => ⟨_, List.mem_cons_of_mem _ (List.mem_cons_of_mem _ List.mem_cons_self), Int.natCast_pos.mpr hd, hv⟩)
  have v1 : r.Valid n := OneOf.valid ⟨m, .inl hr⟩ hn
  have v2 : z.Valid n := OneOf.valid ⟨m, .inr (.inl hz)⟩ hn
  have v3 : s.Valid n := OneOf.valid ⟨m, .inr (.inr hs)⟩ hn
  rw [qscoutR_eq hm.le, Except.ok.injEq] at hr
  rw [qscoutRz_eq hm.le, Except.ok.injEq] at hz
  rw [qscoutMs_eq hm.le, Except.ok.injEq] at hs
  subst hr hz hs
  exact ⟨hall v1 v2 v3, hall (Q := fun pc => 0 ≤ pc.2) (by simp) (by simp) (by simp),
    hall (Q := fun pc => 0 < pc.2 → pc.1.allowedApplyTo ≠ some [] ∧ pc.1.Continuous)
      (fun _ => ⟨connectivity1_ne (by omega), rUnitary_continuous _⟩)
      (fun _ => ⟨connectivity1_ne (by omega), rzUnitary_continuous _⟩)
      fun _ => ⟨connectivity2_ne hn, msUnitary_continuous _⟩,
    C77_layers_universal (hall (Q := fun pc => 0 < pc.2 → pc.1.Idle n)
      (fun _ => rUnitary_idle (by omega) hm) (fun _ => rzUnitary_idle (by omega) hm) fun _ => msUnitary_idle hn hm) hU,
    hall (Q := fun pc => ∀ lists, pc.1.allowedApplyTo = some lists → lists.length ≤ B)
      (fun lists hl => by cases hl; rw [connectivity1_length]; exact hnB)
      (fun lists hl => by cases hl; rw [connectivity1_length]; exact hnB)
      (fun lists hl => by cases hl; exact (connectivity2_length n).trans hB)⟩

/-- C98: with layers of the three gates of the experiments (any positive numbers of them and any positive maximal angle)
`compile_layered` finds every target up to any threshold below 1 with a probability that tends to one exponentially in
the number of steps. -/
theorem C98_layers_succeed {n : ℕ} (hn : 2 ≤ n) {m : ℝ} (hm : 0 < m) {r z s : Primitive} (hr : qscoutR n m = .ok r)
    (hz : qscoutRz n m = .ok z) (hs : qscoutMs n m = .ok s) {a b d : ℕ} (ha : 0 < a) (hd : 0 < d) {p : ℝ} (hp : 0 < p ∧ p ≤ 1)
    {target : Unitary} (ht : target.Exact (2 ^ n)) {threshold : Option ℝ} (hth : ∀ x, threshold = some x → x < 1) {B : ℕ}
    (hB : n * n ≤ B) (hB1 : a + b + d ≤ B) :
    ∃ (δ : ℝ) (K : ℕ), 0 < δ ∧ δ ≤ 1 ∧ 0 < K ∧ ∀ {c : Client} {Cs : List Compiler}, Session 0 c Cs →
      (∀ x ∈ c.world.entries, x.toVal.Exact) → ∀ {C : Compiler}, C ∈ Cs → C.dimension = 2 ^ n →
      C.appendProbability = p → 0 ≤ C.annealingRate → ∀ k : ℕ,
        1 - ENNReal.ofReal ((1 - δ) ^ (k / K)) ≤ Rng.tapes B {t | Succeeds n target threshold
          (C.compileLayered 0 target [(r, (a : ℤ)), (z, (b : ℤ)), (s, (d : ℤ))] threshold k (c.world.reseed t))} := by
  obtain ⟨f1, f2, f3, f4, f5⟩ := layers_facts hn hm hr hz hs ha hd hB (b := b) rfl
  obtain ⟨layers, g1, g2⟩ := f4 _ ht.unitary (Metropolis.allowed threshold) (allowed_pos hth)
  exact C77_compileLayered_succeeds f1 f2 f3 hp ht g1 g2 ((Nat.le_mul_self n).trans hB) (by omega) f5
    (by simpa [add_assoc] using hB1)

/-- C98: the rate is the same for all targets: any number of searches in a row, each for a target that may depend on what was
found before, find all their targets with a probability that tends to one exponentially. -/
theorem C98_layers_all {n : ℕ} (hn : 2 ≤ n) {m : ℝ} (hm : 0 < m) {r z s : Primitive} (hr : qscoutR n m = .ok r)
    (hz : qscoutRz n m = .ok z) (hs : qscoutMs n m = .ok s) {a b d : ℕ} (ha : 0 < a) (hd : 0 < d) {p : ℝ} (hp : 0 < p ∧ p ≤ 1)
    {threshold : Option ℝ} (hth : ∀ x, threshold = some x → x < 1) {B : ℕ} (hB : n * n ≤ B) (hB1 : a + b + d ≤ B) :
    ∃ (δ : ℝ) (K : ℕ), 0 < δ ∧ δ ≤ 1 ∧ 0 < K ∧ ∀ {c : Client} {Cs : List Compiler}, Session 0 c Cs →
      (∀ x ∈ c.world.entries, x.toVal.Exact) → ∀ {C : Compiler}, C ∈ Cs → C.dimension = 2 ^ n →
      C.appendProbability = p → 0 ≤ C.annealingRate →
      ∀ {next : List (List EntryVal) → Unitary}, (∀ found, (next found).Exact (2 ^ n)) → ∀ k j : ℕ,
        1 - ENNReal.ofReal (j * (1 - δ) ^ (k / K)) ≤ Rng.tapes B {t | AllFound n threshold (fun target =>
          C.compileLayered 0 target [(r, (a : ℤ)), (z, (b : ℤ)), (s, (d : ℤ))] threshold k) next j [] (c.world.reseed t)} := by
  obtain ⟨f1, f2, f3, f4, f5⟩ := layers_facts hn hm hr hz hs ha hd hB (b := b) rfl
  exact C94_compileLayered_all f1 f2 f3 hp f4 hth ((Nat.le_mul_self n).trans hB) (by omega) f5 (by simpa [add_assoc] using hB1)

/-- C98: the expected number of steps is bounded, by the same number for all targets and step limits. -/
theorem C98_layers_steps {n : ℕ} (hn : 2 ≤ n) {m : ℝ} (hm : 0 < m) {r z s : Primitive} (hr : qscoutR n m = .ok r)
    (hz : qscoutRz n m = .ok z) (hs : qscoutMs n m = .ok s) {a b d : ℕ} (ha : 0 < a) (hd : 0 < d) {p : ℝ} (hp : 0 < p ∧ p ≤ 1)
    {threshold : Option ℝ} (hth : ∀ x, threshold = some x → x < 1) {B : ℕ} (hB : n * n ≤ B) (hB1 : a + b + d ≤ B) :
    ∃ E : ℝ, ∀ {c : Client} {Cs : List Compiler}, Session 0 c Cs → (∀ x ∈ c.world.entries, x.toVal.Exact) →
      ∀ {C : Compiler}, C ∈ Cs → C.dimension = 2 ^ n → C.appendProbability = p → 0 ≤ C.annealingRate →
      ∀ {target : Unitary}, target.Exact (2 ^ n) → ∀ k : ℕ,
        ∫⁻ t, stepCount (C.compileLayered 0 target [(r, (a : ℤ)), (z, (b : ℤ)), (s, (d : ℤ))] threshold k (c.world.reseed t))
          ∂Rng.tapes B ≤ ENNReal.ofReal E := by
  obtain ⟨f1, f2, f3, f4, f5⟩ := layers_facts hn hm hr hz hs ha hd hB (b := b) rfl
  obtain ⟨δ, K, -, -, -, h⟩ := C95_compileLayered_steps_all f1 f2 f3 hp f4 hth ((Nat.le_mul_self n).trans hB) (by omega) f5
    (by simpa [add_assoc] using hB1)
  exact ⟨K / δ, fun hS hex _ hC hD hP hA _ ht k => (h hS hex hC hD hP hA ht k).2.2⟩

/-- C98: with the three gates of the experiments, with any positive weights and any positive maximal angle, `compile` finds
every target up to any threshold below 1 with a probability that tends to one exponentially in the number of steps. -/
theorem C98_gates_succeed {n : ℕ} (hn : 2 ≤ n) {m : ℝ} (hm : 0 < m) {r z s : Primitive} (hr : qscoutR n m = .ok r)
    (hz : qscoutRz n m = .ok z) (hs : qscoutMs n m = .ok s) {probs : Option (List ℝ)}
    (hch : ∀ ps, probs = some ps → Rng.ValidP 3 ps ∧ ∀ x ∈ ps, 0 < x) {p : ℝ} (hp : 0 < p ∧ p ≤ 1)
    {target : Unitary} (ht : target.Exact (2 ^ n)) {threshold : Option ℝ} (hth : ∀ x, threshold = some x → x < 1) {B : ℕ}
    (hB : n * n ≤ B) :
    ∃ (δ : ℝ) (K : ℕ), 0 < δ ∧ δ ≤ 1 ∧ 0 < K ∧ ∀ {c : Client} {Cs : List Compiler}, Session 0 c Cs →
      (∀ x ∈ c.world.entries, x.toVal.Exact) → ∀ {C : Compiler}, C ∈ Cs → C.dimension = 2 ^ n → C.primitives = [r, z, s] →
      C.probabilities = probs → C.appendProbability = p → 0 ≤ C.annealingRate → C.Truthy → ∀ k : ℕ,
        1 - ENNReal.ofReal ((1 - δ) ^ (k / K)) ≤ Rng.tapes B {t | Succeeds n target threshold
          (C.compile 0 target threshold k (c.world.reseed t))} := by
  have hall : ∀ {Q : Primitive → Prop}, Q r → Q z → Q s → ∀ q ∈ [r, z, s], Q q := by
    intro Q h1 h2 h3 q hq
    simp only [List.mem_cons, List.not_mem_nil, or_false] at hq
    rcases hq with rfl | rfl | rfl
    exacts [h1, h2, h3]
  have hnB : n ≤ B := (Nat.le_mul_self n).trans hB
  have v1 : r.Valid n := OneOf.valid ⟨m, .inl hr⟩ hn
  have v2 : z.Valid n := OneOf.valid ⟨m, .inr (.inl hz)⟩ hn
  have v3 : s.Valid n := OneOf.valid ⟨m, .inr (.inr hs)⟩ hn
  have hr' := hr
  have hs' := hs
  rw [qscoutR_eq hm.le, Except.ok.injEq] at hr'
  rw [qscoutRz_eq hm.le, Except.ok.injEq] at hz
  rw [qscoutMs_eq hm.le, Except.ok.injEq] at hs'
  have a1 : r.allowedApplyTo ≠ some [] := by rw [← hr']; exact connectivity1_ne (by omega)
  have a2 : z.allowedApplyTo ≠ some [] := by rw [← hz]; exact connectivity1_ne (by omega)
  have a3 : s.allowedApplyTo ≠ some [] := by rw [← hs']; exact connectivity2_ne hn
  have hpl : placeable [r, z, s] = [r, z, s] := by simp [placeable, a1, a2, a3]
  have hdraw : ∀ (i : ℕ) (q : Primitive), [r, z, s][i]? = some q → ∀ v, CanDraw n [q] none v → CanDraw n [r, z, s] probs v := by
    rintro i q hi v ⟨q', ⟨j, hj, -⟩, h⟩
    obtain rfl : q' = q := by
      have := List.mem_of_getElem? hj
      exact List.mem_singleton.mp (List.mem_filter.mp this).1
    exact ⟨q', ⟨i, by rw [hpl]; exact hi, fun ps hps x hx => (hch ps hps).2 x (List.mem_of_getElem? hx)⟩, h⟩
  have hU := C98_universal (P := CanDraw n [r, z, s] probs) hm hm hr hs (hdraw 0 r rfl) (hdraw 2 s rfl)
  refine C77_universal_succeeds (hall v1 v2 v3) (hall ?_ ?_ ?_) ?_ hp hU ht hth hnB ?_ (hall ?_ ?_ ?_)
  · rw [← hr']; exact rUnitary_continuous _
  · rw [← hz]; exact rzUnitary_continuous _
  · rw [← hs']; exact msUnitary_continuous _
  · unfold ChoiceOk
    rw [filter_usable, hpl]
    rcases probs with _ | ps
    · simp
    · exact (hch ps rfl).1
  · have : 2 * 2 ≤ n * n := Nat.mul_le_mul hn hn
    simp only [List.length_cons, List.length_nil]
    omega
  · rw [← hr']; rintro lists ⟨⟩; rw [connectivity1_length]; exact hnB
  · rw [← hz]; rintro lists ⟨⟩; rw [connectivity1_length]; exact hnB
  · rw [← hs']; rintro lists ⟨⟩; exact (connectivity2_length n).trans hB

/-! ## Example -/

/-- C98: a compiler for three qubits with the three gates, rotations by at most `π/10` and weights 3/7, 3/7 and 1/7. -/
example (rng : Rng) {target : Unitary} (ht : target.Exact (2 ^ 3)) : ∃ (r z s : Primitive) (c : Client) (C : Compiler) (k0 : ℕ),
    qscoutR 3 (Real.pi / 10) = .ok r ∧ qscoutRz 3 (Real.pi / 10) = .ok z ∧ qscoutMs 3 (Real.pi / 10) = .ok s ∧
    Session 0 c [C] ∧ c.world.rng = rng ∧ C.primitives = [r, z, s] ∧ C.probabilities = some [3 / 7, 3 / 7, 1 / 7] ∧ ∀ k ≥ k0,
      1 - ENNReal.ofReal (1 / 100) ≤ Rng.tapes 9 {t | Succeeds 3 target (some (999 / 1000))
        (C.compile 0 target (some (999 / 1000)) k (c.world.reseed t))} := by
  have hpi : 0 < Real.pi / 10 := by have := Real.pi_pos; positivity
  have hr := qscoutR_eq (n := 3) hpi.le
  have hz := qscoutRz_eq (n := 3) hpi.le
  have hs := qscoutMs_eq (n := 3) hpi.le
  have hS := Session.newCompiler 8 [⟨.inr (rUnitary (Real.pi / 10)), some (connectivity1 3)⟩,
    ⟨.inr (rzUnitary (Real.pi / 10)), some (connectivity1 3)⟩, ⟨.inr (msUnitary (Real.pi / 10)), some (connectivity2 3)⟩]
    false (some [3 / 7, 3 / 7, 1 / 7]) (1 / 2) 1
    (Session.start (τ := 0) rng) (new_compiler_ok false (some [3 / 7, 3 / 7, 1 / 7]) (1 / 2) 1 (by norm_num) (by
      intro q hq
      simp only [List.mem_cons, List.not_mem_nil, or_false] at hq
      rcases hq with rfl | rfl | rfl <;> simp [Primitive.getDimension, rUnitary, rzUnitary, msUnitary]) _)
  obtain ⟨δ, K, g1, g2, g3, g4⟩ := C98_gates_succeed (n := 3) (by norm_num) hpi hr hz hs
    (probs := some [3 / 7, 3 / 7, 1 / 7]) (by
      rintro ps ⟨⟩
      refine ⟨⟨by norm_num, rfl, fun x hx => ?_, by norm_num⟩, fun x hx => ?_⟩
      · simp only [List.mem_cons, List.not_mem_nil, or_false] at hx
        rcases hx with rfl | rfl | rfl <;> norm_num
      · simp only [List.mem_cons, List.not_mem_nil, or_false] at hx
        rcases hx with rfl | rfl | rfl <;> norm_num) (p := 1 / 2) (by norm_num) ht (threshold := some (999 / 1000))
    (by rintro x ⟨⟩; norm_num) (B := 9) (by norm_num)
  obtain ⟨m0, hm0⟩ := C69_enough_steps g1 g2 g3 (fun m => g4 hS (by simp [Client.start]) List.mem_cons_self rfl rfl rfl rfl
    (by norm_num) (by simp [Compiler.Truthy]) m) (show (0 : ℝ) < 1 / 100 by norm_num)
  exact ⟨_, _, _, _, _, m0, hr, hz, hs, hS, rfl, rfl, rfl, hm0⟩

/-- C98: the layers of the experiments on five qubits, 3 `R`, 3 `Rz` and one `MS` with rotations by at most `π/10`: a compiler
for five qubits finds every target up to an overlap of 0.999 with probability at least 0.99, if enough steps are
allowed. -/
example (rng : Rng) {target : Unitary} (ht : target.Exact (2 ^ 5)) : ∃ (r z s : Primitive) (c : Client) (C : Compiler) (k0 : ℕ),
    qscoutR 5 (Real.pi / 10) = .ok r ∧ qscoutRz 5 (Real.pi / 10) = .ok z ∧ qscoutMs 5 (Real.pi / 10) = .ok s ∧
    Session 0 c [C] ∧ c.world.rng = rng ∧ ∀ k ≥ k0,
      1 - ENNReal.ofReal (1 / 100) ≤ Rng.tapes 25 {t | Succeeds 5 target (some (999 / 1000))
        (C.compileLayered 0 target [(r, 3), (z, 3), (s, 1)] (some (999 / 1000)) k (c.world.reseed t))} := by
  have hpi : 0 < Real.pi / 10 := by have := Real.pi_pos; positivity
  have hr := qscoutR_eq (n := 5) hpi.le
  have hz := qscoutRz_eq (n := 5) hpi.le
  have hs := qscoutMs_eq (n := 5) hpi.le
  have hS := Session.newCompiler 32 [⟨.inr (rUnitary (Real.pi / 10)), some (connectivity1 5)⟩] false none (1 / 2) 1
    (Session.start (τ := 0) rng) (new_compiler_ok false none (1 / 2) 1 (by norm_num) (by
      intro q hq
      rw [List.mem_singleton.mp hq]
      simp [Primitive.getDimension, rUnitary]) _)
  obtain ⟨δ, K, g1, g2, g3, g4⟩ := C98_layers_succeed (n := 5) (by norm_num) hpi hr hz hs (a := 3) (b := 3) (d := 1)
    (by norm_num) (by norm_num) (p := 1 / 2) (by norm_num) ht (threshold := some (999 / 1000)) (by rintro x ⟨⟩; norm_num)
    (B := 25) (by norm_num) (by norm_num)
  obtain ⟨m0, hm0⟩ := C69_enough_steps g1 g2 g3 (fun m => g4 hS (by simp [Client.start]) List.mem_cons_self rfl rfl
    (by norm_num) m) (show (0 : ℝ) < 1 / 100 by norm_num)
  exact ⟨_, _, _, _, _, m0, hr, hz, hs, hS, rfl, hm0⟩

end Stoq
