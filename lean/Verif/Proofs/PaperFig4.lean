import Verif.Model.PaperFig4
import Verif.Proofs.PaperScatter

/-!
# Lemmas for figure 4
-/

namespace Stoq

open MeasureTheory ProbabilityTheory

local notation "I" => Set.Ico (0 : ℝ) 1

namespace Paper

/-- A loop of such programs: every turn has its own position. -/
theorem Steady.forEach {α β : Type} {p : α → PyM Rng β} {S : α → ℕ → (ℕ → I) → β} {len : α → ℕ} {l : List α}
    (h : ∀ a ∈ l, Steady (p a) (S a) (len a)) :
    ∃ (G : ℕ → (ℕ → I) → List β) (L : ℕ), Steady (forEach p l) G L ∧
      ∀ u, ∃ us : List ℕ, us.length = l.length ∧ ∀ ω, G u ω = List.zipWith (fun a u' => S a u' ω) l us := by
  induction l with
  | nil => exact ⟨fun _ _ => [], 0, fun ω nat u n => rfl, fun u => ⟨[], rfl, fun ω => rfl⟩⟩
  | cons a l ih =>
    obtain ⟨G, L, hG, hu⟩ := ih fun b hb => h b (List.mem_cons_of_mem _ hb)
    refine ⟨fun u ω => S a u ω :: G (u + len a) ω, len a + L, fun ω nat u n => ?_, fun u => ?_⟩
    · rw [Paper.forEach, PyM.bind_of_ok (h a List.mem_cons_self ω nat u n), PyM.bind_of_ok (hG ω nat _ n), ← Nat.add_assoc]
      rfl
    · obtain ⟨us, h1, h2⟩ := hu (u + len a)
      refine ⟨u :: us, by rw [List.length_cons, List.length_cons, h1], fun ω => ?_⟩
      rw [List.zipWith_cons_cons, ← h2 ω]

theorem mapM_ok {α β : Type} {f : α → Except PyErr β} {g : α → β} {l : List α} (h : ∀ a ∈ l, f a = .ok (g a)) :
    l.mapM f = .ok (l.map g) := by
  induction l with
  | nil => rfl
  | cons a l ih =>
    rw [List.mapM_cons, h a List.mem_cons_self, ih fun b hb => h b (List.mem_cons_of_mem _ hb)]
    rfl

theorem getD_of_lt {α : Type} {l : List α} {i : ℕ} (h : i < l.length) (d : α) : l.getD i d = l[i] := by
  rw [List.getD_eq_getElem?_getD, List.getElem?_eq_getElem h]
  rfl

theorem entryAt_ok {α : Type} {l : List α} {i : ℕ} (h : i < l.length) (d : α) : entryAt l i = .ok (l.getD i d) := by
  unfold entryAt
  rw [List.getElem?_eq_getElem h, getD_of_lt h]

/-- The index of a number of shots. -/
theorem shots_index {shots : List ℕ} {nShots : ℕ} (h : nShots ∈ shots) :
    ∃ i, ∃ hi : i < shots.length, shots[i] = nShots ∧
      entryAt ((List.range shots.length).filter fun i => shots[i]? = some nShots) 0 = .ok i := by
  obtain ⟨k, hk, hkn⟩ := List.getElem_of_mem h
  have hmem : k ∈ (List.range shots.length).filter fun i => shots[i]? = some nShots := by
    rw [List.mem_filter]
    exact ⟨List.mem_range.mpr hk, by simp [List.getElem?_eq_getElem hk, hkn]⟩
  generalize hl : ((List.range shots.length).filter fun i => shots[i]? = some nShots) = l at hmem
  cases l with
  | nil => cases hmem
  | cons i l =>
    have hi : i ∈ (List.range shots.length).filter fun i => shots[i]? = some nShots := by
      rw [hl]
      exact List.mem_cons_self
    rw [List.mem_filter] at hi
    have hlt := List.mem_range.mp hi.1
    have := hi.2
    simp only [decide_eq_true_eq, List.getElem?_eq_getElem hlt, Option.some.injEq] at this
    exact ⟨i, hlt, this, rfl⟩

theorem shots_index_none {shots : List ℕ} {nShots : ℕ} (h : nShots ∉ shots) :
    entryAt ((List.range shots.length).filter fun i => shots[i]? = some nShots) 0 = .error .indexError := by
  have : ((List.range shots.length).filter fun i => shots[i]? = some nShots) = [] := by
    refine List.filter_eq_nil_iff.mpr fun i _ => ?_
    simp only [decide_eq_true_eq]
    exact fun hi => h (List.mem_of_getElem? hi)
  rw [this]
  rfl

/-- The mean of a sum over a list with one position for each entry. -/
theorem integral_zipWith {α : Type} {X : α → ℕ → (ℕ → I) → ℝ} {b : α → ℝ} {l : List α}
    (h : ∀ a ∈ l, ∀ u, Integrable (X a u) uniformTape ∧ ∫ ω, X a u ω ∂uniformTape ≤ b a) (us : List ℕ) (hus : us.length = l.length) :
    Integrable (fun ω => (List.zipWith (fun a u => X a u ω) l us).sum) uniformTape ∧
    ∫ ω, (List.zipWith (fun a u => X a u ω) l us).sum ∂uniformTape ≤ (l.map b).sum := by
  induction l generalizing us with
  | nil => simp
  | cons a l ih =>
    cases us with
    | nil => cases hus
    | cons u us =>
      obtain ⟨h1, h2⟩ := h a List.mem_cons_self u
      obtain ⟨h3, h4⟩ := ih (fun c hc => h c (List.mem_cons_of_mem _ hc)) us (Nat.succ.inj hus)
      simp only [List.zipWith_cons_cons, List.sum_cons, List.map_cons]
      refine ⟨h1.add h3, ?_⟩
      rw [integral_add h1 h3]
      exact add_le_add h2 h4

/-- Simulated standard deviations with known upper bounds of their means. -/
theorem dashed_of_steady {experiment : Arr → ℝ → List ℕ → ℕ → PyM Rng (List ℝ)} {circuits : List Arr}
    {fractions : List ℝ} {shots : List ℕ} {R nShots j : ℕ} (hj : j < fractions.length)
    (hK : nShots ∈ shots) {S : Arr → ℝ → ℕ → (ℕ → I) → List ℝ} {len : Arr → ℝ → ℕ} {b : Arr → ℝ}
    (h : ∀ m ∈ circuits, ∀ f ∈ fractions, Steady (experiment m f shots R) (S m f) (len m f) ∧ ∀ u ω, (S m f u ω).length = shots.length)
    (hb : ∀ m ∈ circuits, ∀ (i : ℕ) (hi : i < shots.length), shots[i] = nShots → ∀ u,
      Integrable (fun ω => (S m fractions[j] u ω).getD i 0) uniformTape ∧
      ∫ ω, (S m fractions[j] u ω).getD i 0 ∂uniformTape ≤ b m)
    {P : Arr → ((ℕ → I) → ℝ) → Prop}
    (hP : ∀ m ∈ circuits, ∀ (i : ℕ) (hi : i < shots.length), shots[i] = nShots → ∀ u, P m fun ω => (S m fractions[j] u ω).getD i 0)
    (nat : ℕ → ℕ) (u n : ℕ) :
    ∃ raw : (ℕ → I) → List ℝ,
      (∀ ω, (fig4Dashed experiment circuits fractions shots R nShots j ⟨ω, nat, u, n⟩).1 = .ok (fig4Point (raw ω))) ∧
      (∀ ω, (raw ω).length = circuits.length) ∧ (∀ (k : ℕ) (hk : k < circuits.length), P circuits[k] fun ω => (raw ω).getD k 0) ∧
      Integrable (fun ω => mean (raw ω)) uniformTape ∧ ∫ ω, mean (raw ω) ∂uniformTape ≤ mean (circuits.map b) := by
  obtain ⟨i, hi, hik, hidx⟩ := shots_index hK
  have h1 : ∀ m, ∃ (G : ℕ → (ℕ → I) → List (List ℝ)) (L : ℕ), m ∈ circuits →
      (Steady (forEach (fun f => experiment m f shots R) fractions) G L ∧
      ∀ u, ∃ us : List ℕ, us.length = fractions.length ∧ ∀ ω, G u ω = List.zipWith (fun f u' => S m f u' ω) fractions us) := by
    intro m
    by_cases hm : m ∈ circuits
    · obtain ⟨G, L, hG⟩ := Steady.forEach fun f hf => (h m hm f hf).1
      exact ⟨G, L, fun _ => hG⟩
    · exact ⟨fun _ _ => [], 0, fun h => absurd h hm⟩
  choose G L hG using h1
  obtain ⟨H, L', hH, hH'⟩ := Steady.forEach fun m hm => (hG m hm).1
  obtain ⟨us, hus, hval⟩ := hH' u
  -- the entry of a circuit
  have hentry : ∀ m ∈ circuits, ∀ u, ∃ u', ∀ ω, (G m u ω).length = fractions.length ∧
      (G m u ω).getD j [] = S m fractions[j] u' ω := by
    intro m hm u
    obtain ⟨vs, hvs, hv⟩ := (hG m hm).2 u
    refine ⟨vs[j]'(by omega), fun ω => ?_⟩
    rw [hv ω]
    have hlen : (List.zipWith (fun f u' => S m f u' ω) fractions vs).length = fractions.length := by
      rw [List.length_zipWith, hvs, Nat.min_self]
    refine ⟨hlen, ?_⟩
    rw [getD_of_lt (by omega), List.getElem_zipWith]
  have hraw : ∀ ω, rawData (H u ω) shots nShots j = .ok ((H u ω).map fun d => (d.getD j []).getD i 0) := by
    intro ω
    unfold rawData
    rw [hidx]
    refine mapM_ok fun d hd => ?_
    rw [hval ω] at hd
    obtain ⟨k, hk, rfl⟩ := List.getElem_of_mem hd
    rw [List.getElem_zipWith]
    have hk1 : k < circuits.length := by rw [List.length_zipWith] at hk; omega
    obtain ⟨u', hu'⟩ := hentry circuits[k] (List.getElem_mem hk1) (us[k]'(by omega))
    obtain ⟨e1, e2⟩ := hu' ω
    rw [entryAt_ok (by rw [e1]; exact hj) []]
    refine entryAt_ok ?_ 0
    rw [e2, (h _ (List.getElem_mem hk1) _ (List.getElem_mem hj)).2]
    exact hi
  have hzip : ∀ ω, (H u ω).map (fun d => (d.getD j []).getD i 0) =
      List.zipWith (fun m u' => ((G m u' ω).getD j []).getD i 0) circuits us := fun ω => by
    rw [hval ω, List.map_zipWith]
  have hlen : ∀ ω, ((H u ω).map fun d => (d.getD j []).getD i 0).length = circuits.length := fun ω => by
    rw [hzip ω, List.length_zipWith, hus, Nat.min_self]
  obtain ⟨hint, hle⟩ := integral_zipWith (X := fun m u' ω => ((G m u' ω).getD j []).getD i 0) (b := b) (l := circuits)
    (fun m hm u => by
      obtain ⟨u', hu'⟩ := hentry m hm u
      have := hb m hm i hi hik u'
      simp only [fun ω => (hu' ω).2]
      exact this) us hus
  have hmean : ∀ ω, mean ((H u ω).map fun d => (d.getD j []).getD i 0) =
      (List.zipWith (fun m u' => ((G m u' ω).getD j []).getD i 0) circuits us).sum / circuits.length := fun ω => by
    rw [mean, hlen ω, hzip ω]
  refine ⟨fun ω => (H u ω).map fun d => (d.getD j []).getD i 0, fun ω => ?_, hlen, fun k hk => ?_, ?_, ?_⟩
  · unfold fig4Dashed circuitStds
    rw [PyM.bind_of_ok (hH ω nat u n), hraw ω]
    rfl
  · obtain ⟨u', hu'⟩ := hentry circuits[k] (List.getElem_mem hk) (us[k]'(by omega))
    have e : (fun ω => ((H u ω).map fun d => (d.getD j []).getD i 0).getD k 0) = fun ω => (S circuits[k] fractions[j] u' ω).getD i 0 := by
      funext ω
      rw [getD_of_lt (by rw [hlen ω]; exact hk), ← (hu' ω).2]
      simp only [hzip ω, List.getElem_zipWith]
    rw [e]
    exact hP _ (List.getElem_mem hk) i hi hik u'
  · simp only [hmean]
    exact hint.div_const _
  · simp only [hmean]
    rw [integral_div, mean, List.length_map]
    exact div_le_div_of_nonneg_right hle (Nat.cast_nonneg _)

/-- The spread of a simulated RAV experiment is at most that of the formula with a larger error. -/
theorem rav_curve {K D : ℕ} (hD : 1 < D) {p e f : ℝ} (h0 : 0 ≤ f) (h1 : f ≤ 1) (hp1 : p ≤ 1) (hp : 1 - e ≤ p)
    (he : 1 / (D : ℝ) < 1 - e) :
    (stdFRav K D f (1 - p) * ((D * p - 1) / (D - 1))) ^ 2 ≤ stdFRav K D f e ^ 2 := by
  have hD1 : (1 : ℝ) < D := by exact_mod_cast hD
  have hD0 : (0 : ℝ) < D := by linarith
  set v : ℝ := 1 / D with hv
  have hv0 : 0 < v := by positivity
  have hv1 : v < 1 := by rw [hv, div_lt_one hD0]; exact hD1
  have hDv : (D : ℝ) * v = 1 := by rw [hv]; field_simp
  set q := 1 - e with hq
  -- the probabilities of a success
  set P := (1 - f) * p + f * v with hP
  set Q := (1 - f) * q + f * v with hQ
  have hQ0 : 0 ≤ Q := by rw [hQ]; exact add_nonneg (mul_nonneg (by linarith) (by linarith)) (mul_nonneg h0 hv0.le)
  have hPQ : Q ≤ P := by
    have : (1 - f) * q ≤ (1 - f) * p := mul_le_mul_of_nonneg_left hp (by linarith)
    linarith
  have hP1 : P ≤ 1 := by
    have : (1 - f) * p ≤ (1 - f) * 1 := mul_le_mul_of_nonneg_left hp1 (by linarith)
    have : f * v ≤ f * 1 := mul_le_mul_of_nonneg_left hv1.le h0
    linarith
  have hq0 : 0 < q := by linarith
  have hq1 : q ≤ 1 := by linarith
  have hPQ' : q * P ≤ Q := by
    have e1 : Q - q * P = (1 - f) * q * (1 - p) + f * v * (1 - q) := by rw [hP, hQ]; ring
    have : 0 ≤ (1 - f) * q * (1 - p) := mul_nonneg (mul_nonneg (by linarith) hq0.le) (by linarith)
    have : 0 ≤ f * v * (1 - q) := mul_nonneg (mul_nonneg h0 hv0.le) (by linarith)
    linarith
  have hprod : q * (P * (1 - P)) ≤ Q * (1 - Q) := by
    calc q * (P * (1 - P)) = q * P * (1 - P) := by ring
      _ ≤ Q * (1 - P) := mul_le_mul_of_nonneg_right hPQ' (by linarith)
      _ ≤ Q * (1 - Q) := mul_le_mul_of_nonneg_left (by linarith) hQ0
  have hsq : (q - v) ^ 2 ≤ q * (1 - v) ^ 2 := by
    have e1 : q * (1 - v) ^ 2 - (q - v) ^ 2 = (1 - q) * (q - v ^ 2) := by ring
    have : v ^ 2 ≤ v := by nlinarith
    have : 0 ≤ (1 - q) * (q - v ^ 2) := mul_nonneg (by linarith) (by linarith)
    linarith
  have hmain : P * (1 - P) * (q - v) ^ 2 ≤ Q * (1 - Q) * (1 - v) ^ 2 := by
    have hPP : 0 ≤ P * (1 - P) := mul_nonneg (hQ0.trans hPQ) (by linarith)
    calc P * (1 - P) * (q - v) ^ 2 ≤ P * (1 - P) * (q * (1 - v) ^ 2) := mul_le_mul_of_nonneg_left hsq hPP
      _ = q * (P * (1 - P)) * (1 - v) ^ 2 := by ring
      _ ≤ Q * (1 - Q) * (1 - v) ^ 2 := mul_le_mul_of_nonneg_right hprod (sq_nonneg _)
  have hK : (0 : ℝ) ≤ 1 / K := by positivity
  have hpv : p - v ≠ 0 := by linarith
  have e2 : ∀ x : ℝ, x - v ≠ 0 → (D : ℝ) / (D * x - 1) = 1 / (x - v) := fun x hx => by
    have : (D : ℝ) * x - 1 = D * (x - v) := by rw [mul_sub, hDv]
    rw [this]
    field_simp
  have hs1 : stdFRav K D f (1 - p) ^ 2 = 1 / K * (1 / (p - v)) ^ 2 * P * (1 - P) := by
    unfold stdFRav
    rw [sub_sub_cancel, e2 p hpv, show (1 - f) * p + f / D = P by rw [hP, hv]; ring,
      show 1 - (1 - f) * p - f / D = 1 - P by rw [hP, hv]; ring, Real.sq_sqrt]
    exact mul_nonneg (mul_nonneg (mul_nonneg hK (sq_nonneg _)) (hQ0.trans hPQ)) (by linarith)
  have hs2 : stdFRav K D f e ^ 2 = 1 / K * (1 / (q - v)) ^ 2 * Q * (1 - Q) := by
    unfold stdFRav
    rw [← hq, e2 q (by linarith), show (1 - f) * q + f / D = Q by rw [hQ, hv]; ring,
      show 1 - (1 - f) * q - f / D = 1 - Q by rw [hQ, hv]; ring, Real.sq_sqrt]
    exact mul_nonneg (mul_nonneg (mul_nonneg hK (sq_nonneg _)) hQ0) (by linarith)
  have e3 : ((D : ℝ) * p - 1) / (D - 1) = (p - v) / (1 - v) := by
    have a1 : (D : ℝ) * p - 1 = D * (p - v) := by rw [mul_sub, hDv]
    have a2 : (D : ℝ) - 1 = D * (1 - v) := by rw [mul_sub, hDv, mul_one]
    rw [a1, a2, mul_div_mul_left _ _ hD0.ne']
  rw [mul_pow, hs1, hs2, e3]
  have e4 : 1 / (K : ℝ) * (1 / (p - v)) ^ 2 * P * (1 - P) * ((p - v) / (1 - v)) ^ 2 = 1 / K * (P * (1 - P) / (1 - v) ^ 2) := by
    have : (1 - v) ≠ 0 := by linarith
    field_simp
  have e5 : 1 / (K : ℝ) * (1 / (q - v)) ^ 2 * Q * (1 - Q) = 1 / K * (Q * (1 - Q) / (q - v) ^ 2) := by
    rw [div_pow, one_pow]
    ring
  rw [e4, e5]
  refine mul_le_mul_of_nonneg_left ?_ hK
  rw [div_le_div_iff₀ (pow_pos (by linarith) 2) (pow_pos (by linarith) 2)]
  exact hmain

end Paper

end Stoq
