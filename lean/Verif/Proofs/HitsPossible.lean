import Verif.Proofs.HitsWalk

/-! # One good sequence of gates suffices for a positive probability -/

namespace Stoq

open Matrix MeasureTheory
open scoped Matrix.Norms.L2Operator

namespace Metropolis

variable {B n L : ℕ} {threshold : Option ℝ} {cap p : ℝ}
  {fresh : PyM Rng (List EntryVal)}

/-- If a sequence of at most `m` possible layers is better than required, the goal is reached within `m` steps with
positive probability, which is the same for all targets of which this holds with some margin. -/
theorem wins_possible (hf : Source B n L fresh) (hcap : 0 ≤ cap)
    (hp0 : 0 < p) (hp1 : p ≤ 1) {ws : List (List EntryVal)} (hw : ∀ l ∈ ws, Rng.Result fresh l)
    {x : ℝ} (hx : x < allowed threshold) {m : ℕ} (hm : ws.length ≤ m) :
    ∃ δ : ℝ, 0 < δ ∧ δ ≤ 1 ∧ ∀ T ∈ unitaryGroup (Fin (2 ^ n)) ℂ, cost n T ws.flatten ≤ x → ∀ rate, 0 ≤ rate → ∀ b,
      0 ≤ b → Wins B n T threshold rate cap (propose p fresh L) m ⟨[], b⟩ δ := by
  classical
  have he0 := Real.exp_pos (-cap)
  have he1 : Real.exp (-cap) ≤ 1 := Real.exp_le_one_iff.mpr (by linarith)
  obtain ⟨y, hy, hx2⟩ := exists_between hx
  obtain ⟨ε, hε, h3⟩ := exists_tolerance hf.layers (Ws := {ws}) (by simpa using hw) hx2
  obtain ⟨c, hc0, hc1, hc⟩ : ∃ c : ℝ, 0 < c ∧ c ≤ 1 ∧ ∀ l ∈ ws, ∃ q : ℝ, 0 ≤ q ∧ q ≤ 1 ∧
      Rng.Hits B fresh (NearCircuit n ε l) q ∧ c ≤ p / 2 * q * Real.exp (-cap) := by
    clear hm h3
    induction ws with
    | nil => exact ⟨1, one_pos, le_rfl, by simp⟩
    | cons l ws ih =>
      obtain ⟨c, hc0, hc1, hc⟩ := ih fun x hx => hw x (List.mem_cons_of_mem _ hx)
      obtain ⟨q, hq0, hq1, hq⟩ := hf.hits l (hw l List.mem_cons_self) ε hε
      refine ⟨min c (p / 2 * q * Real.exp (-cap)), lt_min hc0 (by positivity), (min_le_left _ _).trans hc1, ?_⟩
      intro l' hl'
      rcases List.mem_cons.mp hl' with rfl | hl'
      · exact ⟨q, hq0.le, hq1, hq, min_le_right _ _⟩
      · obtain ⟨q', h1, h2, h3, h4⟩ := hc l' hl'
        exact ⟨q', h1, h2, h3, (min_le_left _ _).trans h4⟩
  refine ⟨c ^ ws.length, pow_pos hc0 _, pow_le_one₀ hc0.le hc1, fun T hT hx1 rate hr b hb => ?_⟩
  have h4 := wins_word (k := m - ws.length) (x := 0) hT hf hr hcap hp0.le hp1 le_rfl zero_le_one
    (fun st _ => wins_zero) hc0.le hc1 ws hc (st := ⟨[], b⟩) ⟨.nil, hb⟩ fun ls hls hres => by
      obtain ⟨h8, h9⟩ := h3 T [] ws hT (Finset.mem_singleton_self _) .nil (by simpa using hx1.trans_lt hy) ls hls hres
      exact goodEnough_of_le h8 h9.le
  rw [show m - ws.length + ws.length = m by omega] at h4
  exact h4.mono (by linarith)

end Metropolis

end Stoq
