import Verif.Proofs.HamiltonianPost

/-! # The random part of the verification sequence of a Hamiltonian -/

namespace Stoq

open World

namespace Rav

theorem abs_signedTime {m u v : ℝ} (hm : 0 ≤ m) (hu : 0 ≤ u) : |signedTime m u v| = m * u := by
  unfold signedTime
  have := mul_nonneg hm hu
  split_ifs
  · exact abs_of_nonneg this
  · rw [abs_neg]; exact abs_of_nonneg this

theorem abs_stepTime {m : ℝ} (hm : 0 ≤ m) (r : Rng) (k : ℕ) : |stepTime m r k| = m * r.unif (r.upos + 2 * k) :=
  abs_signedTime hm (r.unif _).2.1

theorem abs_stepTime_le {m : ℝ} (hm : 0 ≤ m) (r : Rng) (k : ℕ) : |stepTime m r k| ≤ m := by
  rw [abs_stepTime hm]
  have := (r.unif (r.upos + 2 * k)).2.2.le
  nlinarith

theorem stepTime_shift (m : ℝ) (r : Rng) (j k : ℕ) :
    stepTime m { r with upos := r.upos + 2, npos := r.npos + j } k = stepTime m r (k + 1) := by
  unfold stepTime
  simp only
  rw [show r.upos + 2 + 2 * k = r.upos + 2 * (k + 1) by ring]

theorem totalTime_succ (m : ℝ) (r : Rng) (j k : ℕ) :
    totalTime m r (k + 1) = |stepTime m r 0| + totalTime m { r with upos := r.upos + 2, npos := r.npos + j } k := by
  unfold totalTime
  rw [List.range_succ_eq_map, List.map_cons, List.sum_cons, List.map_map]
  congr 2
  refine List.map_congr_left fun i _ => ?_
  simp only [Function.comp_apply, stepTime_shift]

theorem totalTime_zero (m : ℝ) (r : Rng) : totalTime m r 0 = 0 := rfl

section

variable {gate : ℝ → PyM Rng EntryVal} {m time : ℝ} {P : ℝ → ℕ → EntryVal → Prop}

theorem evolutions_step {fuel : ℕ} {total : ℝ} {r r1 : Rng} {v : EntryVal} (h : total < time)
    (hg : gate (stepTime m r 0) { r with upos := r.upos + 2 } = (.ok v, r1)) :
    evolutions gate m time (fuel + 1) total r =
      (do let rest ← evolutions gate m time fuel (total + |stepTime m r 0|); return v :: rest : PyM Rng _) r1 := by
  rw [evolutions, if_pos h, PyM.bind_of_ok (Rng.randomSample_eq r), PyM.bind_of_ok (Rng.randomSample_eq _)]
  simp only
  have : gate (signedTime m (r.unif r.upos) (r.unif (r.upos + 1))) { r with upos := r.upos + 1 + 1 } = (.ok v, r1) := hg
  rw [PyM.bind_of_ok this]
  rfl

/-- The random part, when it ends after `k` gates. -/
theorem evolutions_tape (hm : 0 ≤ m)
    (hgate : ∀ t r, |t| ≤ m → ∃ v, gate t r = (.ok v, { r with npos := r.npos + 1 }) ∧ P t (r.nat r.npos) v)
    {k fuel : ℕ} {total : ℝ} {r : Rng} (hk : k ≤ fuel) (hlt : ∀ j < k, total + totalTime m r j < time)
    (hge : time ≤ total + totalTime m r k) :
    ∃ vs, evolutions gate m time fuel total r = (.ok vs, { r with upos := r.upos + 2 * k, npos := r.npos + k }) ∧
      vs.length = k ∧ ∀ i v, vs[i]? = some v → P (stepTime m r i) (r.nat (r.npos + i)) v := by
  induction k generalizing fuel total r with
  | zero =>
    rw [totalTime_zero, add_zero] at hge
    refine ⟨[], ?_, rfl, by simp⟩
    rcases fuel with _ | fuel <;> rw [evolutions, if_neg (not_lt.mpr hge)] <;> rfl
  | succ k ih =>
    obtain ⟨fuel, rfl⟩ : ∃ f, fuel = f + 1 := ⟨fuel - 1, by omega⟩
    have h0 : total < time := by simpa [totalTime_zero] using hlt 0 (by omega)
    obtain ⟨v, hv, hP⟩ := hgate _ { r with upos := r.upos + 2 } (abs_stepTime_le hm r 0)
    obtain ⟨vs, h1, h2, h3⟩ := ih (fuel := fuel) (total := total + |stepTime m r 0|)
      (r := { r with upos := r.upos + 2, npos := r.npos + 1 }) (by omega)
      (fun j hj => by
        have := hlt (j + 1) (by omega)
        rw [totalTime_succ m r 1] at this
        linarith)
      (by rw [totalTime_succ m r 1] at hge; linarith)
    refine ⟨v :: vs, ?_, by rw [List.length_cons, h2], fun i x hx => ?_⟩
    · rw [evolutions_step h0 hv, PyM.bind_of_ok h1]
      have e1 : r.upos + 2 + 2 * k = r.upos + 2 * (k + 1) := by ring
      have e2 : r.npos + 1 + k = r.npos + (k + 1) := by ring
      simp only [e1, e2]
      rfl
    · rcases i with _ | i
      · simp only [List.getElem?_cons_zero, Option.some.injEq] at hx
        subst hx
        exact hP
      · have := h3 i x (by simpa using hx)
        rw [stepTime_shift] at this
        simp only at this
        rwa [show r.npos + 1 + i = r.npos + (i + 1) by ring] at this

/-- The random part, when it has not ended after `fuel` gates. -/
theorem evolutions_running (hm : 0 ≤ m)
    (hgate : ∀ t r, |t| ≤ m → ∃ v, gate t r = (.ok v, { r with npos := r.npos + 1 }) ∧ P t (r.nat r.npos) v)
    {fuel : ℕ} {total : ℝ} {r : Rng} (hlt : ∀ j ≤ fuel, total + totalTime m r j < time) :
    (evolutions gate m time fuel total r).1 = .error .outOfFuel := by
  induction fuel generalizing total r with
  | zero =>
    have h0 : total < time := by simpa [totalTime_zero] using hlt 0 le_rfl
    rw [evolutions, if_pos h0]
    rfl
  | succ fuel ih =>
    have h0 : total < time := by simpa [totalTime_zero] using hlt 0 (by omega)
    obtain ⟨v, hv, -⟩ := hgate _ { r with upos := r.upos + 2 } (abs_stepTime_le hm r 0)
    have h1 := ih (total := total + |stepTime m r 0|) (r := { r with upos := r.upos + 2, npos := r.npos + 1 })
      (fun j hj => by
        have := hlt (j + 1) (by omega)
        rw [totalTime_succ m r 1] at this
        linarith)
    rw [evolutions_step h0 hv]
    rcases h : evolutions gate m time fuel (total + |stepTime m r 0|)
      { r with upos := r.upos + 2, npos := r.npos + 1 } with ⟨e | vs, r'⟩
    · rw [h] at h1
      cases h1
      rw [PyM.bind_of_error h]
    · rw [h] at h1
      cases h1

/-- What holds of every finished random part. -/
theorem evolutions_ok {Q : ℝ → EntryVal → Prop} (hQ : ∀ t r v r', gate t r = (.ok v, r') → Q t v)
    {fuel : ℕ} {total : ℝ} {r r' : Rng} {vs : List EntryVal}
    (h : evolutions gate m time fuel total r = (.ok vs, r')) :
    ∃ ts, List.Forall₂ Q ts vs ∧ time ≤ total + (ts.map abs).sum ∧
      ∀ k < ts.length, total + ((ts.take k).map abs).sum < time := by
  induction fuel generalizing total r vs with
  | zero =>
    rw [evolutions] at h
    by_cases h0 : total < time
    · rw [if_pos h0] at h; cases h
    · rw [if_neg h0] at h; cases h
      exact ⟨[], .nil, by simpa using h0, by simp⟩
  | succ fuel ih =>
    rw [evolutions] at h
    by_cases h0 : total < time
    swap
    · rw [if_neg h0] at h; cases h
      exact ⟨[], .nil, by simpa using h0, by simp⟩
    rw [if_pos h0] at h
    simp only [PyM.bind_eq_ok_iff] at h
    obtain ⟨u, r1, -, v, r2, -, g, r3, h1, rest, r4, h2, h3⟩ := h
    cases h3
    obtain ⟨ts, h4, h5, h6⟩ := ih h2
    refine ⟨signedTime m u v :: ts, .cons (hQ _ _ _ _ h1) h4, ?_, ?_⟩
    · rw [List.map_cons, List.sum_cons]; linarith
    · intro k hk
      rcases k with _ | k
      · simpa using h0
      · have := h6 k (by simpa using hk)
        rw [List.take_succ_cons, List.map_cons, List.sum_cons]
        linarith

end

end Rav

/-! ## The bound on the number of iterations -/

theorem ravLoop_mono {τ : Arith} {H : Hamiltonian} {prims : List Primitive} {m time : ℝ} {s fuel : ℕ} {total : ℝ}
    {w : World} (h : (H.ravLoop τ prims m time s fuel total w).1 ≠ .error .outOfFuel) :
    H.ravLoop τ prims m time s (fuel + 1) total w = H.ravLoop τ prims m time s fuel total w := by
  induction fuel generalizing total w with
  | zero =>
    rw [Hamiltonian.ravLoop] at h
    by_cases h0 : total < time
    · rw [if_pos h0] at h; exact absurd rfl h
    · rw [Hamiltonian.ravLoop, Hamiltonian.ravLoop, if_neg h0, if_neg h0]
  | succ fuel ih =>
    by_cases h0 : total < time
    swap
    · rw [Hamiltonian.ravLoop, Hamiltonian.ravLoop, if_neg h0, if_neg h0]
    rw [Hamiltonian.ravLoop, if_pos h0] at h
    rw [Hamiltonian.ravLoop, if_pos h0]
    conv_rhs => rw [Hamiltonian.ravLoop, if_pos h0]
    rcases hst : H.ravStep τ prims m s w with ⟨e | t, w1⟩
    · rw [PyM.bind_of_error hst, PyM.bind_of_error hst]
    · rw [PyM.bind_of_ok hst] at h
      rw [PyM.bind_of_ok hst, PyM.bind_of_ok hst]
      exact ih h

theorem hrav_mono {τ : Arith} {H : Hamiltonian} {m time : ℝ} {threshold : Option ℝ} {b : Bool} {fuel : ℕ} {w : World}
    (h : (H.compileRavSequence τ time m threshold b fuel w).1 ≠ .error .outOfFuel) :
    H.compileRavSequence τ time m threshold b (fuel + 1) w = H.compileRavSequence τ time m threshold b fuel w := by
  rcases hp : H.getUnitaryPrimitives τ m b with e | prims
  · rw [hrav_error hp, hrav_error hp]
  rw [hrav_eq hp] at h
  rw [hrav_eq hp, hrav_eq hp]
  unfold ravWith at h ⊢
  rcases hn : Seq.new H.dimension false [] w with ⟨e | s, w1⟩
  · rw [PyM.bind_of_error hn, PyM.bind_of_error hn]
  rw [PyM.bind_of_ok hn] at h
  rw [PyM.bind_of_ok hn, PyM.bind_of_ok hn]
  have hl : (H.ravLoop τ prims m time s fuel 0 w1).1 ≠ .error .outOfFuel := by
    intro hl
    apply h
    rw [PyM.bind_of_error (Prod.ext hl rfl)]
  have := ravLoop_mono hl
  rcases hr : H.ravLoop τ prims m time s fuel 0 w1 with ⟨e | u, w2⟩
  · rw [hr] at this
    rw [PyM.bind_of_error this, PyM.bind_of_error hr]
  · rw [hr] at this
    rw [PyM.bind_of_ok this, PyM.bind_of_ok hr]

theorem hrav_mono_le {τ : Arith} {H : Hamiltonian} {m time : ℝ} {threshold : Option ℝ} {b : Bool} {fuel fuel' : ℕ}
    {w : World} (h : (H.compileRavSequence τ time m threshold b fuel w).1 ≠ .error .outOfFuel) (hle : fuel ≤ fuel') :
    H.compileRavSequence τ time m threshold b fuel' w = H.compileRavSequence τ time m threshold b fuel w := by
  induction fuel', hle using Nat.le_induction with
  | base => rfl
  | succ f _ ih => rw [hrav_mono (by rw [ih]; exact h), ih]

end Stoq
