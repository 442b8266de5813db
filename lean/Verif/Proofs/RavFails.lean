import Verif.Proofs.RepoRavTests

/-! # Random circuits that are not undone -/

namespace Stoq

open MeasureTheory World Compiler Matrix Verification
open scoped Matrix.Norms.L2Operator

namespace Rav

variable {B n L : ℕ} {fresh : PyM Rng (List EntryVal)}

/-- Circuits near to one of the possible circuits have positive probability. -/
theorem blocks_hits (hf : Metropolis.Source B n L fresh) {ε : ℝ} (hε : 0 < ε) {ws : List (List EntryVal)}
    (hw : ∀ l ∈ ws, Rng.Result fresh l) :
    ∃ q : ℝ, 0 < q ∧ q ≤ 1 ∧ Rng.Hits B (blocks fresh ws.length) (fun pre => NearCircuit n (ws.length * ε) ws.flatten pre) q := by
  have key : ∀ ws : List (List EntryVal), (∀ l ∈ ws, Rng.Result fresh l) → ∃ q : ℝ, 0 < q ∧ q ≤ 1 ∧
      Rng.Hits B (blocks fresh ws.length) (fun pre => ∃ ls, pre = List.flatten ls ∧ List.Forall₂ (NearCircuit n ε) ws ls ∧
        ∀ l ∈ ls, Rng.Result fresh l) q := by
    intro ws
    induction ws with
    | nil => exact fun _ => ⟨1, one_pos, le_rfl, Rng.Hits.pure ⟨[], rfl, .nil, by simp⟩⟩
    | cons w ws ih =>
      intro hw
      obtain ⟨q1, a1, a2, a3⟩ := hf.hits w (hw w List.mem_cons_self) ε hε
      obtain ⟨q2, b1, b2, b3⟩ := ih fun l hl => hw l (List.mem_cons_of_mem _ hl)
      refine ⟨q1 * q2, mul_pos a1 b1, mul_le_one₀ a2 b1.le b2, ?_⟩
      unfold blocks
      refine a3.bind b1.le b2 (fun l hl hn => b3.map ?_) fun _ _ => (blocks_total hf.total _).bind fun _ _ => Rng.Total.pure _
      rintro pre - ⟨ls, rfl, c1, c2⟩
      exact ⟨l :: ls, rfl, .cons hn c1, List.forall_mem_cons.mpr ⟨hl, c2⟩⟩
  obtain ⟨q, h1, h2, h3⟩ := key ws hw
  refine ⟨q, h1, h2, h3.mono ?_ le_rfl⟩
  rintro pre - ⟨ls, rfl, c1, c2⟩
  exact Metropolis.near_flatten hf.layers c1 hw c2

end Rav

/-- If some possible random circuit is far from the identity, then with positive probability the circuit is not undone. -/
theorem fails_of_word {B n L k : ℕ} {fresh : PyM Rng (List EntryVal)} (hf : Metropolis.Source B n L fresh)
    {ws : List (List EntryVal)} (hw : ∀ l ∈ ws, Rng.Result fresh l) (hk : ws.length = k) {t rate cap : ℝ}
    (hfar : overlap 1 (circuit n ws.flatten) < t) :
    ∃ q : ℝ, 0 < q ∧ q ≤ 1 ∧ ∀ {skip : Prop} {w : World} {M : PyM World CompilerResult} {m : ℕ},
      (∀ t', FollowsPlan n (Rav.plan n (Rav.blocks fresh k) (Metropolis.propose 0.5 fresh L) rate cap (some t) skip m)
        (w.reseed t') (M (w.reseed t'))) →
      ENNReal.ofReal (q * (1 / 2) ^ m) ≤ Rng.tapes B {t' | ¬ ComesBack n t (M (w.reseed t'))} := by
  classical
  subst hk
  have hpos : 0 < (t - overlap 1 (circuit n ws.flatten)) / (2 * (ws.length + 1)) := div_pos (by linarith) (by positivity)
  obtain ⟨q, h1, h2, h3⟩ := Rav.blocks_hits hf hpos hw
  refine ⟨q, h1, h2, ?_⟩
  intro skip w M m hM
  have hfar' : ∀ pre, NearCircuit n (ws.length * ((t - overlap 1 (circuit n ws.flatten)) / (2 * (ws.length + 1)))) ws.flatten pre →
      overlap 1 (circuit n pre) < t := by
    rintro pre ⟨c, hc, h⟩
    have h4 := overlap_sub_le (Nat.two_pow_pos n) (one_mem (unitaryGroup (Fin (2 ^ n)) ℂ)) (B := circuit n pre)
      (A := c • circuit n ws.flatten)
    rw [overlap_smul_right hc, norm_sub_rev] at h4
    have h5 := h4.trans h
    have h6 : (ws.length : ℝ) * ((t - overlap 1 (circuit n ws.flatten)) / (2 * (ws.length + 1))) <
        t - overlap 1 (circuit n ws.flatten) := by
      rw [mul_div_assoc', div_lt_iff₀ (by positivity)]
      nlinarith [show (0 : ℝ) ≤ ws.length by positivity]
    linarith
  have key := h3.use (S := fun pre => {t' | overlap 1 (circuit n pre) < t ∧ ∀ i < m, (1 / 2 : ℝ) ≤ t'.1 (2 * i)}) (x := 0)
    (y := (1 / 2) ^ m) le_rfl (by positivity) (pow_le_one₀ (by norm_num) (by norm_num)) (by simp) fun pre _ hn => by
      rw [← Tests.stuck_measure B m]
      exact measure_mono fun t' ht => ⟨hfar' pre hn, ht⟩
  refine le_trans (ENNReal.ofReal_le_ofReal (by simp)) (key.trans (measure_mono fun t' ht => ?_))
  obtain ⟨pre, r1, e1, g1, g2⟩ := ht (Rng.start t') (Rng.rest_start t')
  have hrun : ∃ walk r', Rav.plan n (Rav.blocks fresh ws.length) (Metropolis.propose 0.5 fresh L) rate cap (some t) skip m
      (Rng.start t') = (.ok (pre, walk), r') ∧ Rav.final walk = [] := by
    unfold Rav.plan
    rw [PyM.bind_of_ok e1]
    by_cases hs : skip
    · exact ⟨[], r1, by rw [if_pos hs]; rfl, rfl⟩
    · obtain ⟨tr, r', e2, htr⟩ := Tests.run_stuck (n := n) (T := (circuit n pre)ᴴ) (threshold := some t) (rate := rate)
        (cap := cap) (fresh := fresh) (L := L) m 0 r1 g2
      refine ⟨tr, r', by rw [if_neg hs, Int.toNat_natCast, PyM.bind_of_ok e2]; rfl, ?_⟩
      unfold Rav.final
      rcases hx : tr.getLast? with _ | st
      · rfl
      · exact htr st (List.mem_of_getLast? hx)
  obtain ⟨walk, r', e2, hfin⟩ := hrun
  have hp := hM t'
  unfold FollowsPlan at hp
  rw [show (w.reseed t').rng = Rng.start t' from rfl, e2] at hp
  obtain ⟨-, R, hR, -, ⟨undo, hv⟩, -⟩ := hp
  rintro ⟨gates, costs, ⟨R', e3, -, v, e4, e5⟩, hle⟩
  rw [hR] at e3; cases e3
  rw [hv] at e4; cases e4
  subst e5
  rw [hfin, List.append_nil] at hle
  linarith

end Stoq
