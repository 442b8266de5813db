import Verif.Proofs.DriftHistory
import Verif.Props.SequenceExamples
import Mathlib.Tactic.FinCases

/-!
# Properties C56 and C57: the effect of the clean-up and of rounding

The other properties about operators are about exact arithmetic without clean-up.  Here the arithmetic `τ` is
arbitrary, as long as the clean-up threshold and twice the rounding error of a matrix entry add up to at most `t`
(`Arith.Accurate`).  `u.Near V ε` says that `u` stores a matrix within operator-norm distance `ε` of `V` up to a phase.
-/

namespace Stoq

open Matrix
open scoped Matrix.Norms.L2Operator

variable {d n k : ℕ} {τ : Arith} {t ε ε' : ℝ} {u v : Unitary} {V W : Matrix (Fin d) (Fin d) ℂ}

/-! ## C56: single operations -/

/-- The constructor accepts every unitary matrix and stores it up to a phase and an error `3 d t`. -/
theorem C56_construct (hd : 0 < d) (hτ : τ.Accurate d t) (hlim : 3 * d * t ≤ driftLimit) {a : Arr} (ha : a.Is V)
    (hV : V ∈ unitaryGroup (Fin d) ℂ) (name : Option String) (pd : Option ParamDict) (inv : Bool) (ap : List ℕ) :
    ∃ u, Unitary.new τ d (some a) name pd inv ap = .ok u ∧ u.Near V (3 * d * t) ∧
      u.operationName = name.getD "U" ∧ u.parameterDict = pd.getD [] ∧ u.isInverse = inv ∧ u.applyTo = ap := by
  obtain ⟨hr, hc, rfl⟩ := ha
  have hX : NearMat (a.toMatrix d) (a.toMatrix d) 0 :=
    CloseTo.near ⟨1, by simp, by simp⟩ (Unitary.norm_det_of_unitary hV)
  have := Unitary.new_near hd hτ hr hc hV hX (by simpa using hlim) name pd inv ap
  simpa using this

/-- The inverse is as good as the unitary, up to one more clean-up. -/
theorem C56_inverse (hd : 0 < d) (hτ : τ.Accurate d t) (hu : u.Near V ε) (hV : V ∈ unitaryGroup (Fin d) ℂ)
    (hlim : ε + 3 * d * t ≤ driftLimit) :
    ∃ r, u.inverse τ = .ok r ∧ r.Near V⁻¹ (ε + 3 * d * t) ∧ r.operationName = u.operationName ∧
      r.parameterDict = u.parameterDict ∧ r.isInverse = (!u.isInverse) ∧ r.applyTo = u.applyTo := by
  rw [show V⁻¹ = Vᴴ from Matrix.inv_eq_right_inv (mem_unitaryGroup_iff.mp hV)]
  exact Unitary.inverse_near hd hτ hu hV hlim

/-- Errors of the factors combine, plus one clean-up. -/
theorem C56_multiply (hd : 0 < d) (hτ : τ.Accurate d t) (hu : u.Near V ε) (hv : v.Near W ε')
    (hV : V ∈ unitaryGroup (Fin d) ℂ) (hW : W ∈ unitaryGroup (Fin d) ℂ)
    (hlim : (1 + ε) * (1 + ε') - 1 + 3 * d * t ≤ driftLimit) :
    (∃ r, u.leftMultiply τ v = .ok r ∧ r.Near (W * V) ((1 + ε) * (1 + ε') - 1 + 3 * d * t)) ∧
    ∃ r, u.rightMultiply τ v = .ok r ∧ r.Near (V * W) ((1 + ε) * (1 + ε') - 1 + 3 * d * t) := by
  constructor
  · have h := Unitary.leftMultiply_near hd hτ hu hv hV hW
    unfold Unitary.mulErr at h
    rw [mul_comm (1 + ε')] at h
    exact h hlim
  · exact Unitary.rightMultiply_near hd hτ hu hv hV hW hlim

/-- The measured distance is close to the ideal one. -/
theorem C56_distance (hd : 0 < d) (hτ : τ.Accurate d t) (hu : u.Near V ε) (hv : v.Near W ε')
    (hV : V ∈ unitaryGroup (Fin d) ℂ) (hW : W ∈ unitaryGroup (Fin d) ℂ) (hlim : ε + 3 * d * t ≤ driftLimit)
    (hε' : ε' ≤ 1 / 20) :
    ∃ x, u.distanceFrom τ v = .ok x ∧ |x - (1 - overlap V W)| ≤ (1 + (ε + 3 * d * t)) * (1 + ε') - 1 :=
  Unitary.distanceFrom_near hd hτ hu hv hV hW hlim hε'

/-- Extending an entry to the whole system gives the operator of its gate. -/
theorem C56_full_unitary {e : EntryVal} {g : Gate} (hτ : τ.Accurate (2 ^ n) t) (hτ1 : t ≤ 1) (he : e.Realises g ε) (hg : g.Ok n)
    (hlim : ε + 6 * 2 ^ n * t ≤ driftLimit) :
    ∃ f, e.fullUnitary τ (2 ^ n) = .ok f ∧ f.Near (g.op n) (ε + 6 * 2 ^ n * t) :=
  EntryVal.fullUnitary_near hτ hτ1 he hg hlim

/-- The error after `k` operations is at most twice the sum of the single errors, as long as that is small. -/
theorem C56_budget (hτ : τ.Accurate (2 ^ n) t) (hτ1 : t ≤ 1) (hε : 0 ≤ ε) (h : k * stepErr n t ε ≤ 2.45e-9) :
    Budget n τ t ε k ∧ driftErr n t ε k ≤ 2 * (k * stepErr n t ε) := by
  have ht := hτ.t_nonneg
  have hs : 0 ≤ stepErr n t ε := by unfold stepErr; positivity
  have hx : 0 ≤ k * stepErr n t ε := by positivity
  have h1 : driftErr n t ε k ≤ 2 * (k * stepErr n t ε) := by
    unfold driftErr
    have h2 : (1 + stepErr n t ε) ^ k ≤ Real.exp (k * stepErr n t ε) := by
      rw [Real.exp_nat_mul]
      exact pow_le_pow_left₀ (by linarith) (by linarith [Real.add_one_le_exp (stepErr n t ε)]) k
    have h3 : |Real.exp (k * stepErr n t ε) - 1| ≤ 2 * |k * stepErr n t ε| := Real.abs_exp_sub_one_le (by
      rw [abs_of_nonneg hx]; linarith)
    rw [abs_of_nonneg hx] at h3
    linarith [le_abs_self (Real.exp (k * stepErr n t ε) - 1)]
  refine ⟨⟨hτ, hτ1, hε, ?_⟩, h1⟩
  unfold driftLimit
  linarith

/-- The Pauli X matrix at the code's threshold. -/
theorem xArr_is : (Arr.ofRows [[0, 1], [1, 0]]).Is (!![0, 1; 1, 0] : Matrix (Fin 2) (Fin 2) ℂ) ∧
    (!![0, 1; 1, 0] : Matrix (Fin 2) (Fin 2) ℂ) ∈ unitaryGroup (Fin 2) ℂ := by
  refine ⟨⟨rfl, rfl, ?_⟩, ?_⟩
  · ext i j; fin_cases i <;> fin_cases j <;> simp [Arr.toMatrix, Arr.ofRows]
  · rw [mem_unitaryGroup_iff]; ext i j
    fin_cases i <;> fin_cases j <;> simp [Matrix.mul_apply, Fin.sum_univ_two, star_eq_conjTranspose]

/-- The code's clean-up in exact arithmetic. -/
theorem code_accurate {D : ℕ} : (Arith.exact codeTau).Accurate D codeTau :=
  Arith.exact_accurate (by unfold codeTau; norm_num) D

example : ∃ u, Unitary.new (.exact codeTau) 2 (some (Arr.ofRows [[0, 1], [1, 0]])) = .ok u ∧
    u.Near (!![0, 1; 1, 0] : Matrix (Fin 2) (Fin 2) ℂ) 6e-12 := by
  obtain ⟨u, h1, h2, -⟩ := C56_construct (by norm_num) code_accurate
    (by unfold codeTau driftLimit; norm_num) xArr_is.1 xArr_is.2 none none false []
  exact ⟨u, h1, h2.mono (by unfold codeTau; norm_num)⟩

/-- The remaining hypotheses of C56 at the code's threshold: unitaries with error `1e-10` on up to four qubits. -/
example : (1e-10 : ℝ) + 3 * (16 : ℕ) * codeTau ≤ driftLimit ∧
    (1 + (1e-10 : ℝ)) * (1 + 1e-10) - 1 + 3 * (16 : ℕ) * codeTau ≤ driftLimit ∧
    (1e-10 : ℝ) + 6 * 2 ^ 4 * codeTau ≤ driftLimit := by
  unfold codeTau driftLimit; norm_num

/-- Twenty operations on three qubits with gates of error `1e-12` are within the budget. -/
example : Budget 3 (.exact codeTau) codeTau 1e-12 20 :=
  (C56_budget code_accurate (by unfold codeTau; norm_num) (by norm_num) (by
    unfold stepErr codeTau; norm_num)).1

/-! ## C57: programs -/

/-- Every client program over the sequence interface, with gates stored up to an error `ε`, behaves as the ideal
program does on plain lists of exact gates, as long as the number of operations is within the budget: the same calls
raise the same exceptions, lengths are equal, entries agree up to `ε` plus the error of the inversions, and products
up to the accumulated error.  As in C14, `inverse` is only called on sequences without shared entry objects. -/
theorem C57_histories (rng : Rng) {ops ops' : List Op} {j : ℕ} (hε : 0 ≤ ε)
    (ha : List.Forall₂ (Op.Approximates n ε) ops ops') (hi : Client.NoSharedInverse τ (Client.start rng) ops)
    (hk : Op.total ops 0 ≤ k) (hj : (ops.map Op.inversions).sum ≤ j) (hb : Budget n τ t (gateErr n t ε j) k) :
    List.Forall₂ (NearResult (gateErr n t ε j) (driftErr n t (gateErr n t ε j) k))
      ((Client.start rng).run τ ops).1 (Plain.run ⟨[], []⟩ ops').1 :=
  run_near (relNear_start rng) hε ha hi hk hj hb

/-- A two-qubit sequence, edited, undone, multiplied out and combined with itself, at the code's threshold. -/
example (rng : Rng) : ∃ u, Unitary.new (.exact codeTau) 2 (some (tinyPhase 1).matrix) = .ok u ∧
    List.Forall₂ (NearResult (gateErr 2 codeTau 6e-12 1) (driftErr 2 codeTau (gateErr 2 codeTau 6e-12 1) 15))
      ((Client.start rng).run (.exact codeTau) [.newEntry u [1], .newSeq 4 false [0], .product 0, .appendLast 0 0 true,
        .removeFirst 0 true, .undo 0, .undo 0, .getLength 0, .fullUnitary 0 4, .combine [0, 0], .product 1]).1
      (Plain.run ⟨[], []⟩ [.newEntry (tinyPhase 1) [1], .newSeq 4 false [0], .product 0, .appendLast 0 0 true,
        .removeFirst 0 true, .undo 0, .undo 0, .getLength 0, .fullUnitary 0 4, .combine [0, 0], .product 1]).1 := by
  have hv := tinyPhase_exact 1
  obtain ⟨u, h1, h2, -⟩ := C56_construct (a := (tinyPhase 1).matrix) (by norm_num) code_accurate
    (by unfold codeTau driftLimit; norm_num) ⟨hv.rows, hv.cols, rfl⟩ hv.unitary
    none none false []
  refine ⟨u, h1, C57_histories rng (by norm_num) ?_ (by simp [Client.NoSharedInverse, Op.NoSharedInverse])
    (by simp [Op.total, Op.count]) (by simp [Op.inversions]) ?_⟩
  · refine .cons ⟨rfl, 2, hv, h2.mono (by unfold codeTau; norm_num)⟩ (.cons ⟨rfl, rfl, rfl, 2, le_rfl, rfl⟩ ?_)
    repeat' first
      | exact ⟨rfl, 2, le_rfl, rfl⟩
      | constructor
  · exact (C56_budget code_accurate (by unfold codeTau; norm_num)
      (by unfold gateErr codeTau; norm_num) (by unfold stepErr gateErr codeTau; norm_num)).1

/-- A sequence is inverted and combined with its inverse, at the code's threshold. -/
example (rng : Rng) : ∃ u, Unitary.new (.exact codeTau) 2 (some (tinyPhase 1).matrix) = .ok u ∧
    List.Forall₂ (NearResult (gateErr 2 codeTau 6e-12 1) (driftErr 2 codeTau (gateErr 2 codeTau 6e-12 1) 8))
      ((Client.start rng).run (.exact codeTau) [.newEntry u [1], .newSeq 4 false [0], .inverse 0, .combine [0, 1],
        .product 2]).1
      (Plain.run ⟨[], []⟩ [.newEntry (tinyPhase 1) [1], .newSeq 4 false [0], .inverse 0, .combine [0, 1],
        .product 2]).1 := by
  have hv := tinyPhase_exact 1
  obtain ⟨u, h1, h2, -⟩ := C56_construct (a := (tinyPhase 1).matrix) (by norm_num) code_accurate
    (by unfold codeTau driftLimit; norm_num) ⟨hv.rows, hv.cols, rfl⟩ hv.unitary
    none none false []
  have hb : Budget 2 (.exact codeTau) codeTau (gateErr 2 codeTau 6e-12 1) 8 := (C56_budget code_accurate
    (by unfold codeTau; norm_num) (by unfold gateErr codeTau; norm_num)
    (by unfold stepErr gateErr codeTau; norm_num)).1
  have hb' : Budget 2 (.exact codeTau) codeTau 6e-12 8 := hb.mono_eps (by norm_num) (by unfold gateErr codeTau; norm_num)
  have ha1 : (Op.newEntry u [1]).Approximates 2 6e-12 (.newEntry (tinyPhase 1) [1]) :=
    ⟨rfl, 2, hv, h2.mono (by unfold codeTau; norm_num)⟩
  have ha2 : (Op.newSeq 4 false [0]).Approximates 2 6e-12 (.newSeq 4 false [0]) := ⟨rfl, rfl, rfl, 2, le_rfl, rfl⟩
  have r1 := (step_near0 (k := 0) (relNear_start rng) ha1 rfl (hb'.mono (by simp [Op.count]))).2
  have r2 := (step_near0 r1 ha2 rfl (hb'.mono (by simp [Op.count]))).2
  refine ⟨u, h1, C57_histories rng (by norm_num) ?_ ?_ (by simp [Op.total, Op.count]) (by simp [Op.inversions]) hb⟩
  · refine .cons ha1 (.cons ha2 ?_)
    repeat' constructor
  · refine ⟨trivial, trivial, r2.short fun v hv => ?_, trivial, trivial, trivial⟩
    have h0 : Plain.fits 4 (demoGate 1) := by simp [Plain.fits, demoGate]
    simp [Plain.step, Plain.with_, getAll, h0, show EntryVal.new (tinyPhase 1) [1] = _ from demoGate_new 1] at hv
    rw [← hv]; simp

end Stoq
