import Verif.Proofs.Measurable
import Verif.Spec.HamiltonianRav
import Verif.Proofs.Overlap
import Mathlib.MeasureTheory.Constructions.BorelSpace.Complex

/-! # The Metropolis walk depends measurably on the random numbers -/

namespace Stoq

open MeasureTheory Matrix Rng

variable {γ : Type} [MeasurableSpace γ] {n d : ℕ}

instance : Nonempty Arr := ⟨⟨0, 0, fun _ _ => 0⟩⟩

instance : Nonempty Unitary := ⟨⟨Classical.arbitrary Arr, "", [], false, []⟩⟩

instance : Nonempty EntryVal := ⟨⟨Classical.arbitrary Unitary, []⟩⟩

/-- A matrix up to its phase: the products of its elements with the conjugates of its elements. -/
def dbl (A : Matrix (Fin d) (Fin d) ℂ) : Fin d → Fin d → Fin d → Fin d → ℂ := fun i j k l => A i j * star (A k l)

theorem measurable_dbl {A : γ → Matrix (Fin d) (Fin d) ℂ} :
    Measurable (fun c => dbl (A c)) ↔ ∀ i j k l, Measurable fun c => A c i j * star (A c k l) := by
  simp only [measurable_pi_iff]
  rfl

theorem measurable_dbl_mul {A B : γ → Matrix (Fin d) (Fin d) ℂ} (hA : Measurable fun c => dbl (A c))
    (hB : Measurable fun c => dbl (B c)) : Measurable fun c => dbl (A c * B c) := by
  rw [measurable_dbl] at hA hB ⊢
  intro i j k l
  have : (fun c => (A c * B c) i j * star ((A c * B c) k l)) = fun c => ∑ x, ∑ y,
      A c i x * star (A c k y) * (B c x j * star (B c y l)) := by
    funext c
    rw [mul_apply, mul_apply, star_sum, Finset.sum_mul_sum]
    refine Finset.sum_congr rfl fun x _ => Finset.sum_congr rfl fun y _ => ?_
    rw [star_mul']
    ring
  rw [this]
  exact Finset.measurable_sum _ fun x _ => Finset.measurable_sum _ fun y _ => (hA i x k y).mul (hB x j y l)

theorem measurable_dbl_conjTranspose {A : γ → Matrix (Fin d) (Fin d) ℂ} (hA : Measurable fun c => dbl (A c)) :
    Measurable fun c => dbl (A c)ᴴ := by
  rw [measurable_dbl] at hA ⊢
  intro i j k l
  have : (fun c => (A c)ᴴ i j * star ((A c)ᴴ k l)) = fun c => A c l k * star (A c j i) := by
    funext c
    simp only [conjTranspose_apply, star_star]
    ring
  rw [this]
  exact hA l k j i

theorem measurable_overlap {A B : γ → Matrix (Fin d) (Fin d) ℂ} (hA : Measurable fun c => dbl (A c))
    (hB : Measurable fun c => dbl (B c)) : Measurable fun c => overlap (A c) (B c) := by
  have hC := measurable_dbl.mp (measurable_dbl_mul (measurable_dbl_conjTranspose hA) hB)
  have : (fun c => overlap (A c) (B c)) =
      fun c => √(∑ i, ∑ j, ((A c)ᴴ * B c) i i * star (((A c)ᴴ * B c) j j)).re / d := by
    funext c
    unfold overlap
    congr 1
    rw [← Finset.sum_mul_sum, ← star_sum]
    change _ = √(((A c)ᴴ * B c).trace * star ((A c)ᴴ * B c).trace).re
    rw [show star ((A c)ᴴ * B c).trace = (starRingEnd ℂ) ((A c)ᴴ * B c).trace from rfl, Complex.mul_conj, Complex.ofReal_re,
      Complex.normSq_eq_norm_sq, Real.sqrt_sq (norm_nonneg _)]
  rw [this]
  have h2 : Measurable fun c => ∑ i, ∑ j, ((A c)ᴴ * B c) i i * star (((A c)ᴴ * B c) j j) :=
    Finset.measurable_sum _ fun i _ => Finset.measurable_sum _ fun j _ => hC i i j j
  exact ((Complex.measurable_re.comp h2).sqrt).div_const _

noncomputable instance : MeasurableSpace (Fin d → Fin d → Fin d → Fin d → ℂ) := inferInstance

noncomputable instance : MeasurableSpace (ℕ × (ℕ → Fin d → Fin d → Fin d → Fin d → ℂ)) := inferInstance

noncomputable instance : MeasurableSpace ((ℕ × (ℕ → Fin d → Fin d → Fin d → Fin d → ℂ)) × ℝ) := inferInstance

noncomputable instance : MeasurableSpace (ℕ × (ℕ → (ℕ × (ℕ → Fin d → Fin d → Fin d → Fin d → ℂ)) × ℝ)) := inferInstance

/-- The operator of a gate, up to its phase. -/
def gateKey (n : ℕ) (v : EntryVal) : Fin (2 ^ n) → Fin (2 ^ n) → Fin (2 ^ n) → Fin (2 ^ n) → ℂ := dbl (v.op n)

/-- The number of gates and their operators, up to their phases. -/
def gatesKey (n : ℕ) : List EntryVal → ℕ × (ℕ → Fin (2 ^ n) → Fin (2 ^ n) → Fin (2 ^ n) → Fin (2 ^ n) → ℂ) :=
  listKey (dbl 1) (gateKey n)

theorem circuit_append_single (l : List EntryVal) (v : EntryVal) : circuit n (l ++ [v]) = v.op n * circuit n l := by
  induction l with
  | nil => simp [circuit]
  | cons a l ih => rw [List.cons_append, circuit, ih, circuit, Matrix.mul_assoc]

theorem measurable_circuit {g : γ → List EntryVal} (hg : Measurable fun c => gatesKey n (g c)) :
    Measurable fun c => dbl (circuit n (g c)) := by
  have key : ∀ k : ℕ, Measurable fun c => dbl (circuit n ((g c).take k)) := by
    intro k
    induction k with
    | zero => simp only [List.take_zero]; exact measurable_const
    | succ k ih =>
      have h1 : Measurable fun c => dbl (((g c)[k]?).elim 1 fun v => v.op n) := by
        have := (measurable_list.mp hg).2 k
        have e : (fun c => dbl (((g c)[k]?).elim 1 fun v => v.op n)) = fun c => ((g c)[k]?).elim (dbl 1) (gateKey n) := by
          funext c
          cases (g c)[k]? <;> rfl
        rw [e]; exact this
      have e : (fun c => dbl (circuit n ((g c).take (k + 1)))) =
          fun c => dbl ((((g c)[k]?).elim 1 fun v => v.op n) * circuit n ((g c).take k)) := by
        funext c
        rw [List.take_add_one]
        cases (g c)[k]? with
        | none => simp
        | some v => simp only [Option.toList_some, Option.elim_some, circuit_append_single]
      rw [e]
      exact measurable_dbl_mul h1 ih
  have := (measurable_from_prod_countable_right (f := fun q : ℕ × γ => dbl (circuit n ((g q.2).take q.1))) key).comp
    ((measurable_list.mp hg).1.prodMk measurable_id)
  simpa [Function.comp_def] using this

theorem measurable_cost {T : γ → Matrix (Fin (2 ^ n)) (Fin (2 ^ n)) ℂ} (hT : Measurable fun c => dbl (T c))
    {g : γ → List EntryVal} (hg : Measurable fun c => gatesKey n (g c)) :
    Measurable fun c => Metropolis.cost n (T c) (g c) :=
  measurable_const.sub (measurable_overlap hT (measurable_circuit hg))

theorem measurableSet_good (threshold : Option ℝ) {f : γ → ℝ} (hf : Measurable f) :
    MeasurableSet {c | Metropolis.GoodEnough threshold (f c)} := by
  cases threshold with
  | none => exact measurableSet_le (continuous_abs.measurable.comp hf) measurable_const
  | some t => exact measurableSet_le hf measurable_const

namespace Metropolis

theorem propose_meas {p : ℝ} {fresh : PyM Rng (List EntryVal)} (hf : ∀ {γ : Type} [MeasurableSpace γ], Meas (gatesKey n) fun _ : γ => fresh)
    (L : ℕ) {g : γ → List EntryVal} (hg : Measurable fun c => gatesKey n (g c)) :
    Meas (gatesKey n) fun c => propose p fresh L (g c) := by
  unfold propose
  refine (Meas.const (κ := fun _ : Unit => ()) _).bind fun _ _ => ?_
  refine Meas.randomSample.bind fun u hu => ?_
  have hg' : Measurable fun c : (γ × Tape) × Tape => gatesKey n (g c.1.1) := hg.comp (measurable_fst.comp measurable_fst)
  have hu' : ∀ x : ℝ, MeasurableSet {c : (γ × Tape) × Tape | u c < x} := fun x => measurableSet_lt hu measurable_const
  refine Meas.ite (hu' _) (hf.bind fun new hnew => Meas.pure ?_) ?_
  · exact measurable_append (measurable_reverse hnew) (hg'.comp measurable_fst)
  refine Meas.ite (hu' _) (hf.bind fun new hnew => Meas.pure ?_) ?_
  · exact measurable_append (hg'.comp measurable_fst) hnew
  refine Meas.ite (hu' _) (Meas.pure ?_) (Meas.pure ?_)
  · exact measurable_drop_list hg' L
  · exact measurable_take hg' ((measurable_from_top (f := fun k : ℕ => k - L)).comp (measurable_list.mp hg').1)

/-- The gates of a state, up to phases, and its inverse temperature. -/
def stateKey (n : ℕ) (st : State) := (gatesKey n st.gates, st.beta)

/-- A program that makes candidates from the current gates depends measurably on them. -/
def ProposesMeas (n : ℕ) (proposal : List EntryVal → PyM Rng (List EntryVal)) : Prop :=
  ∀ {γ : Type} [MeasurableSpace γ] {g : γ → List EntryVal}, (Measurable fun c => gatesKey n (g c)) →
    Meas (gatesKey n) fun c => proposal (g c)

instance : Nonempty State := ⟨⟨[], 0⟩⟩

theorem step_meas {proposal : List EntryVal → PyM Rng (List EntryVal)} (hp : ProposesMeas n proposal)
    {T : γ → Matrix (Fin (2 ^ n)) (Fin (2 ^ n)) ℂ} (hT : Measurable fun c => dbl (T c)) (rate cap : ℝ) {st : γ → State}
    (hst : Measurable fun c => stateKey n (st c)) : Meas (stateKey n) fun c => step n (T c) rate cap proposal (st c) := by
  unfold step
  have hβ : Measurable fun c => min ((st c).beta + rate) cap := (hst.snd.add_const _).min measurable_const
  refine (hp hst.fst).bind fun new hnew => Meas.randomSample.bind fun u hu => ?_
  have m1 : Measurable fun c : (γ × Tape) × Tape => c.1.1 := measurable_fst.comp measurable_fst
  refine Meas.ite ?_ (Meas.pure ?_) (Meas.pure ?_)
  · refine measurableSet_lt hu (measurable_const.min (Real.measurable_exp.comp ?_))
    exact (hβ.comp m1).neg.mul ((measurable_cost (hT.comp m1) (hnew.comp measurable_fst)).sub
      (measurable_cost (hT.comp m1) (hst.fst.comp m1)))
  · exact (hnew.comp measurable_fst).prodMk (hβ.comp m1)
  · exact (hst.fst.comp m1).prodMk (hβ.comp m1)

/-- The states of a walk. -/
def walkKey (n : ℕ) := listKey (stateKey n ⟨[], 0⟩) (stateKey n)

theorem run_meas {proposal : List EntryVal → PyM Rng (List EntryVal)} (hp : ProposesMeas n proposal)
    (threshold : Option ℝ) (rate cap : ℝ) (k : ℕ) : ∀ {γ : Type} [MeasurableSpace γ]
    {T : γ → Matrix (Fin (2 ^ n)) (Fin (2 ^ n)) ℂ} {st : γ → State}, (Measurable fun c => dbl (T c)) →
    (Measurable fun c => stateKey n (st c)) → Meas (walkKey n) fun c => run n (T c) threshold rate cap proposal k (st c) := by
  classical
  induction k with
  | zero =>
    intro γ _ T st _ hst
    exact Meas.pure measurable_const
  | succ k ih =>
    intro γ _ T st hT hst
    unfold run
    refine Meas.ite (measurableSet_good threshold (measurable_cost hT hst.fst)) (Meas.pure measurable_const) ?_
    refine (step_meas hp hT rate cap hst).bind fun st' hst' => (ih (hT.comp measurable_fst) hst').bind fun tr htr => Meas.pure ?_
    exact measurable_cons (v := fun c : (γ × Tape) × Tape => st' c.1) (hst'.comp measurable_fst) htr

/-- The gates after the step `i`. -/
theorem measurable_gates_at {tr : γ → List State} (h : Measurable fun c => walkKey n (tr c)) {s : γ → ℕ} (hs : Measurable s) :
    Measurable fun c => gatesKey n (((tr c)[s c]?).getD ⟨[], 0⟩).gates := by
  have := (measurable_at h hs).fst
  have e : (fun c => gatesKey n (((tr c)[s c]?).getD ⟨[], 0⟩).gates) =
      fun c => (((tr c)[s c]?).elim (stateKey n ⟨[], 0⟩) (stateKey n)).1 := by
    funext c
    cases (tr c)[s c]? <;> rfl
  rw [e]; exact this

theorem measurable_last {tr : γ → List State} (h : Measurable fun c => walkKey n (tr c)) :
    Measurable fun c => gatesKey n ((tr c).getLast?.getD ⟨[], 0⟩).gates := by
  have := measurable_gates_at h (s := fun c => (tr c).length - 1)
    ((measurable_from_top (f := fun k : ℕ => k - 1)).comp (measurable_list.mp h).1)
  simpa only [List.getLast?_eq_getElem?] using this

theorem measurable_costs {T : γ → Matrix (Fin (2 ^ n)) (Fin (2 ^ n)) ℂ} (hT : Measurable fun c => dbl (T c))
    {tr : γ → List State} (h : Measurable fun c => walkKey n (tr c)) :
    Measurable fun c => listKey 0 (fun x : ℝ => x) ((tr c).map fun st => cost n (T c) st.gates) := by
  have hlen := (measurable_list.mp h).1
  refine measurable_list.mpr ⟨by simpa only [List.length_map] using hlen, fun i => ?_⟩
  have h1 := measurable_cost hT (measurable_gates_at h (s := fun _ => i) measurable_const)
  have e : (fun c => (((tr c).map fun st => cost n (T c) st.gates)[i]?).elim 0 fun x : ℝ => x) =
      fun c => if i < (tr c).length then cost n (T c) (((tr c)[i]?).getD ⟨[], 0⟩).gates else 0 := by
    funext c
    rw [List.getElem?_map]
    split_ifs with hi
    · rw [List.getElem?_eq_getElem hi]; rfl
    · rw [List.getElem?_eq_none (not_lt.mp hi)]; rfl
  rw [e]
  exact Measurable.ite (measurableSet_lt measurable_const hlen) h1 measurable_const

end Metropolis

namespace Rav

/-- The random gates and the states of the walk. -/
def planKey (n : ℕ) (x : List EntryVal × List Metropolis.State) := (gatesKey n x.1, Metropolis.walkKey n x.2)

theorem plan_meas {random : PyM Rng (List EntryVal)} (hr : Meas (gatesKey n) fun _ : γ => random)
    {proposal : List EntryVal → PyM Rng (List EntryVal)} (hp : Metropolis.ProposesMeas n proposal) (rate cap : ℝ)
    (threshold : Option ℝ) (skip : Prop) (m : ℤ) :
    Meas (planKey n) fun _ : γ => plan n random proposal rate cap threshold skip m := by
  classical
  unfold plan
  refine hr.bind fun pre hpre => ?_
  by_cases hs : skip
  · simp only [hs, if_true]
    exact Meas.pure (hpre.prodMk (measurable_const (a := Metropolis.walkKey n [])))
  · simp only [hs, if_false]
    refine (Metropolis.run_meas hp threshold rate cap m.toNat (measurable_dbl_conjTranspose (measurable_circuit hpre))
      (st := fun _ => ⟨[], 0⟩) measurable_const).bind fun walk hwalk => Meas.pure ?_
    exact (hpre.comp measurable_fst).prodMk hwalk

/-- The random part of the verification sequence of a Hamiltonian. -/
theorem evolutions_meas {gate : ℝ → PyM Rng EntryVal} {m : ℝ} (hm : 0 ≤ m) (time : ℝ)
    (hgate : ∀ {γ : Type} [MeasurableSpace γ] {t : γ → ℝ}, Measurable t → (∀ c, |t c| ≤ m) → Meas (gateKey n) fun c => gate (t c))
    (fuel : ℕ) : ∀ {γ : Type} [MeasurableSpace γ] {total : γ → ℝ}, Measurable total →
      Meas (gatesKey n) fun c => evolutions gate m time fuel (total c) := by
  classical
  induction fuel with
  | zero =>
    intro γ _ total h
    unfold evolutions
    exact Meas.ite (measurableSet_lt h measurable_const) (Meas.raise _) (Meas.pure measurable_const)
  | succ fuel ih =>
    intro γ _ total h
    unfold evolutions
    refine Meas.ite (measurableSet_lt h measurable_const) ?_ (Meas.pure measurable_const)
    refine Meas.randomSample.bind_of (Q := fun u : ℝ => 0 ≤ u ∧ u < 1) (a₀ := 0) (by norm_num)
      (fun _ _ h => by
        obtain ⟨r, r', h⟩ := h
        cases h
        exact (r.unif r.upos).2) fun u hu0 hu => ?_
    refine Meas.randomSample.bind fun v hv => ?_
    have ht : Measurable fun c : (γ × Tape) × Tape => signedTime m (u c.1) (v c) := by
      unfold signedTime
      have hmu : Measurable fun c : (γ × Tape) × Tape => m * u c.1 := (hu.comp measurable_fst).const_mul m
      exact Measurable.ite (measurableSet_lt hv measurable_const) hmu hmu.neg
    have hb : ∀ c : (γ × Tape) × Tape, |signedTime m (u c.1) (v c)| ≤ m := by
      intro c
      have : |m * u c.1| ≤ m := by
        rw [abs_of_nonneg (mul_nonneg hm (hu0 c.1).1)]
        exact mul_le_of_le_one_right hm (hu0 c.1).2.le
      unfold signedTime
      split_ifs
      · exact this
      · rwa [abs_neg]
    refine (hgate ht hb).bind fun g hg => ?_
    refine (ih (total := fun c : ((γ × Tape) × Tape) × Tape => total c.1.1.1 + |signedTime m (u c.1.1) (v c.1)|) ?_).bind
      fun rest hrest => Meas.pure ?_
    · exact (h.comp (measurable_fst.comp (measurable_fst.comp measurable_fst))).add
        (continuous_abs.measurable.comp (ht.comp measurable_fst))
    · exact measurable_cons (v := fun c : (((γ × Tape) × Tape) × Tape) × Tape => g c.1) (hg.comp measurable_fst) hrest

end Rav

end Stoq
