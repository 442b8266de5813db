import Verif.Proofs.Binary64
import Verif.Props.DriftLibrary

/-!
# Property C75: double precision is accurate enough

The properties C56, C57 and C61 to C64 assume that the matrix arithmetic is accurate.  Here matrix operations are made of
rounded operations on real numbers (`Machine.arith`), and the accuracy follows from that of the single operations; numbers
of double precision with correct rounding achieve it.
-/

namespace Stoq

open Matrix UnitaryDefinitions
open scoped Matrix.Norms.L2Operator

variable {M : Machine} {D n : ℕ} {u δ ε : ℝ}

theorem Arith.Accurate.weaken {τ : Arith} {δ δ' : ℝ} (h : τ.Accurate D δ) (hle : δ ≤ δ') : τ.Accurate D δ' := by
  obtain ⟨h0, e, he, ht, hr⟩ := h
  exact ⟨h0, e, he, ht.trans hle, hr⟩

theorem NearResult.weaken {ε' E E' : ℝ} {a : Except PyErr Client.Obs} {b : Except PyErr Plain.Obs}
    (h : NearResult ε E a b) (hε : ε ≤ ε') (hle : E ≤ E') : NearResult ε' E' a b := by
  unfold NearResult at *
  split at h
  · rename_i x y
    unfold NearObs at *
    split at h
    case h_4 => exact h.mono hle
    case h_5 => exact h.imp fun _ _ h => ⟨h.1, h.2.mono hε⟩
    all_goals simp_all
  all_goals simp_all

/-- When every real operation has error `u`, matrix arithmetic up to dimension `D` is accurate to `32 * D * u`, beside
the clean-up. -/
theorem C75_rounded (h : M.Ok D u) (hD : 1 ≤ D) (hu : D * u ≤ 1 / 100) (hδ : 0 ≤ δ) :
    (M.arith δ).Accurate D (δ + 32 * D * u) := by
  have := h.u_nonneg
  exact ⟨hδ, 16 * D * u, by positivity, le_of_eq (by change δ + _ = _; ring), h.rounds hD hu δ⟩

/-- `binary64` is rounding to nearest: the result is a number of double precision, none is closer, numbers of double
precision are left alone, and the error is at most a relative `2 ^ -53`, or `2 ^ -1075` next to zero. -/
theorem C75_nearest (x : ℝ) : IsDouble (binary64 x) ∧ (∀ y, IsDouble y → |binary64 x - x| ≤ |y - x|) ∧
    (IsDouble x → binary64 x = x) ∧ |binary64 x - x| ≤ 2 ^ (-53 : ℤ) * |x| + 2 ^ (-1075 : ℤ) := by
  refine ⟨binary64_isDouble x, fun y hy => binary64_nearest hy, fun hx => ?_, binary64_near x⟩
  exact binary64_of_isDouble hx

/-- Double precision, with library functions that round exact results, is accurate up to dimension 1024. -/
theorem C75_double (hD : 1 ≤ D) (hD2 : D ≤ 1024) :
    (Machine.double.arith codeTau).Accurate D (codeTau + 32 * D * 2 ^ (-51 : ℤ)) := by
  refine C75_rounded (Machine.double_ok hD hD2) hD ?_ (by unfold codeTau; norm_num)
  have : (D : ℝ) ≤ 1024 := by exact_mod_cast hD2
  have h2 := zpow_pos' (-51)
  refine (mul_le_mul_of_nonneg_right this h2.le).trans ?_
  norm_num

/-- The unit of rounding of double precision allows a few units for determinants, roots, elementary functions and
exponentials: any other library functions with that accuracy will do, and any order of adding in matrix products and
traces, with or without fused multiplication and addition. -/
theorem C75_libraries (hr : M.round = binary64) (hD : 1 ≤ D) (hD2 : D ≤ 1024)
    (hmul : ∀ x y, M.Dot 1 (fun _ => x) (fun _ => y) (M.mul x y))
    (hdot : ∀ a b i j, M.Dot a.cols (fun k => a.val i k) (fun k => b.val k j) (M.dot a b i j))
    (htrace : ∀ a, M.Sums a.rows (fun k => (a.val k k).re) (M.trace a).re ∧
      M.Sums a.rows (fun k => (a.val k k).im) (M.trace a).im)
    (hdet : ∀ d ≤ D, ∀ a : Arr, a.Small d → (∃ V ∈ unitaryGroup (Fin d) ℂ, ‖a.toMatrix d - V‖ ≤ 1 / 100) →
      ‖M.det a - a.det‖ ≤ D * 2 ^ (-51 : ℤ) * ‖a.det‖)
    (hdet1 : ∀ d ≤ D, M.det (Arr.identity d) = 1)
    (hphase : ∀ d ≤ D, ∀ z : ℂ, (1 / 2) ^ d ≤ ‖z‖ → ‖z‖ ≤ 2 ^ d →
      ‖M.phase d z - (1 / z) ^ (1 / (d : ℂ))‖ ≤ D * 2 ^ (-51 : ℤ))
    (hphase1 : ∀ d ≤ D, M.phase d 1 = 1)
    (hent : ∀ d ≤ D, ∀ (name : String) (args : List ℝ) (a : Arr), (∀ x ∈ args, |x| ≤ 100) → a.Small d →
      ∀ i < d, ∀ j < d, ‖M.entries name args a i j - a.val i j‖ ≤ D * 2 ^ (-51 : ℤ))
    (hexp : ∀ d ≤ D, ∀ (h a : Arr) (x : ℝ), |x| * ‖h.toMatrix d‖ ≤ 100 → a.Small d →
      ∀ i < d, ∀ j < d, ‖M.evolution h x a i j - a.val i j‖ ≤ D * 2 ^ (-51 : ℤ)) :
    (M.arith codeTau).Accurate D (codeTau + 32 * D * 2 ^ (-51 : ℤ)) := by
  have h0 := Machine.double_ok hD hD2
  have h : M.Ok D (2 ^ (-51 : ℤ)) := by
    refine ⟨?_, ?_, ?_, hmul, hdot, htrace, hdet, hdet1, hphase, hphase1, hent, hexp⟩
    · rw [hr]; exact h0.round
    · rw [hr]; exact h0.zero
    · rw [hr]; exact h0.one
  refine C75_rounded h hD ?_ (by unfold codeTau; norm_num)
  have : (D : ℝ) ≤ 1024 := by exact_mod_cast hD2
  refine (mul_le_mul_of_nonneg_right this (zpow_pos' (-51)).le).trans ?_
  norm_num

/-- The sum of the first terms by fused multiplications and additions, each rounded once. -/
noncomputable def fusedSum (g : ℕ → ℝ) : ℕ → ℝ
  | 0 => 0
  | n + 1 => binary64 (fusedSum g n + g n)

/-- Double precision with fused multiplication and addition. -/
noncomputable def fused : Machine :=
  { Machine.double with
    mul := fun x y => ⟨fusedSum (Machine.reTerms (fun _ => x) fun _ => y) 2, fusedSum (Machine.imTerms (fun _ => x) fun _ => y) 2⟩
    dot := fun a b i j => ⟨fusedSum (Machine.reTerms (fun k => a.val i k) fun k => b.val k j) (2 * a.cols),
      fusedSum (Machine.imTerms (fun k => a.val i k) fun k => b.val k j) (2 * a.cols)⟩
    trace := fun a => ⟨fusedSum (fun k => (a.val k k).re) a.rows, fusedSum (fun k => (a.val k k).im) a.rows⟩ }

theorem fusedSum_sums (g : ℕ → ℝ) (n : ℕ) : fused.Sums n g (fusedSum g n) := by
  unfold Machine.Sums
  induction n with
  | zero => rfl
  | succ n ih =>
    rw [if_neg (by omega)]
    rcases Nat.eq_zero_or_pos n with rfl | h0
    · have : fusedSum g 1 = fused.round (g 0) := by unfold fusedSum fusedSum; rw [zero_add]; rfl
      rw [zero_add, this]; exact .rounded 0
    · rw [if_neg h0.ne'] at ih
      have := ih.add (.exact n) (by simp)
      rwa [Finset.union_comm, ← Finset.insert_eq, ← Finset.range_add_one] at this

/-- Fused operations are covered. -/
example : (fused.arith codeTau).Accurate 8 1.2e-12 := by
  have h0 := Machine.double_ok (D := 8) (by norm_num) (by norm_num)
  exact (C75_libraries (M := fused) (D := 8) rfl (by norm_num) (by norm_num)
    (fun x y => ⟨fusedSum_sums _ _, fusedSum_sums _ _⟩) (fun a b i j => ⟨fusedSum_sums _ _, fusedSum_sums _ _⟩)
    (fun a => ⟨fusedSum_sums _ _, fusedSum_sums _ _⟩) h0.det h0.det_one h0.phase h0.phase_one h0.entries h0.evolution).weaken (by unfold codeTau; norm_num)

example : (Machine.double.arith codeTau).Accurate 8 1.2e-12 :=
  (C75_double (D := 8) (by norm_num) (by norm_num)).weaken (by unfold codeTau; norm_num)

/-- Programs over the sequence interface, run in double precision on up to ten qubits, do what they do in exact
arithmetic without clean-up, up to small errors in products and inverses. -/
theorem C75_programs (hn : n ≤ 10) (rng : Rng) {ops ops' : List Op} {k j : ℕ} (hε : 0 ≤ ε)
    (hδ : δ = codeTau + 32 * (2 ^ n : ℕ) * 2 ^ (-51 : ℤ))
    (ha : List.Forall₂ (Op.Approximates n ε) ops ops')
    (hi : Client.NoSharedInverse (Machine.double.arith codeTau) (Client.start rng) ops)
    (hk : Op.total ops 0 ≤ k) (hj : (ops.map Op.inversions).sum ≤ j)
    (hb : k * stepErr n δ (gateErr n δ ε j) ≤ 2.45e-9) :
    List.Forall₂ (NearResult (gateErr n δ ε j) (2 * (k * stepErr n δ (gateErr n δ ε j))))
      ((Client.start rng).run (Machine.double.arith codeTau) ops).1 (Plain.run ⟨[], []⟩ ops').1 := by
  have h2 : 2 ^ n ≤ 1024 := (Nat.pow_le_pow_right (by norm_num) hn).trans (by norm_num)
  have hacc := C75_double (D := 2 ^ n) Nat.one_le_two_pow h2
  rw [← hδ] at hacc
  have h0 := hacc.t_nonneg
  have ht1 : δ ≤ 1 := by
    rw [hδ]
    have : ((2 ^ n : ℕ) : ℝ) ≤ 1024 := by exact_mod_cast h2
    have h3 : 32 * ((2 ^ n : ℕ) : ℝ) * 2 ^ (-51 : ℤ) ≤ 32 * 1024 * 2 ^ (-51 : ℤ) :=
      mul_le_mul_of_nonneg_right (by linarith) (zpow_pos' _).le
    refine (add_le_add_right h3 codeTau).trans ?_
    unfold codeTau; norm_num
  obtain ⟨hbud, hle⟩ := C56_budget hacc ht1 (by unfold gateErr; positivity) hb
  exact (C57_histories rng hε ha hi hk hj hbud).imp fun _ _ h => h.weaken le_rfl hle

/-- A two-qubit sequence, edited, undone, multiplied out and combined with itself, in double precision; the products
are within `3e-9`. -/
example (rng : Rng) : ∃ u, Unitary.new (Machine.double.arith codeTau) 2 (some (tinyPhase 1).matrix) = .ok u ∧
    List.Forall₂ (NearResult 3e-11 3e-9)
      ((Client.start rng).run (Machine.double.arith codeTau) [.newEntry u [1], .newSeq 4 false [0], .product 0,
        .appendLast 0 0 true, .removeFirst 0 true, .undo 0, .undo 0, .getLength 0, .fullUnitary 0 4, .combine [0, 0],
        .product 1]).1
      (Plain.run ⟨[], []⟩ [.newEntry (tinyPhase 1) [1], .newSeq 4 false [0], .product 0, .appendLast 0 0 true,
        .removeFirst 0 true, .undo 0, .undo 0, .getLength 0, .fullUnitary 0 4, .combine [0, 0], .product 1]).1 := by
  have hv := tinyPhase_exact 1
  have hacc : (Machine.double.arith codeTau).Accurate 2 1.2e-12 :=
    (C75_double (D := 2) (by norm_num) (by norm_num)).weaken (by unfold codeTau; norm_num)
  obtain ⟨u, h1, h2, -⟩ := C56_construct (a := (tinyPhase 1).matrix) (by norm_num) hacc
    (by unfold driftLimit; norm_num) ⟨hv.rows, hv.cols, rfl⟩ hv.unitary
    none none false []
  have ha : List.Forall₂ (Op.Approximates 2 7.2e-12) [.newEntry u [1], .newSeq 4 false [0], .product 0,
        .appendLast 0 0 true, .removeFirst 0 true, .undo 0, .undo 0, .getLength 0, .fullUnitary 0 4, .combine [0, 0],
        .product 1] [.newEntry (tinyPhase 1) [1], .newSeq 4 false [0], .product 0, .appendLast 0 0 true,
        .removeFirst 0 true, .undo 0, .undo 0, .getLength 0, .fullUnitary 0 4, .combine [0, 0], .product 1] := by
    refine .cons ⟨rfl, 2, hv, h2.mono (by norm_num)⟩ (.cons ⟨rfl, rfl, rfl, 2, le_rfl, rfl⟩ ?_)
    repeat' first
      | exact ⟨rfl, 2, le_rfl, rfl⟩
      | constructor
  refine ⟨u, h1, (C75_programs (k := 15) (j := 1) (n := 2) (by norm_num) rng (by norm_num) rfl ha
    (by simp [Client.NoSharedInverse, Op.NoSharedInverse]) (by simp [Op.total, Op.count]) (by simp [Op.inversions])
    (by unfold stepErr gateErr codeTau; norm_num)).imp fun _ _ h => h.weaken ?_ ?_⟩
  · unfold gateErr codeTau; norm_num
  · unfold stepErr gateErr codeTau; norm_num

/-- The gates of the library on three qubits, in double precision. -/
example : (∀ θ φ : ℝ, |θ| ≤ 100 → |φ| ≤ 100 →
      NearGate (rphi (Machine.double.arith codeTau) θ φ)
        (Gate.rot ((Real.cos φ : ℂ) • Gate.X + (Real.sin φ : ℂ) • Gate.Y) θ) (6 * 1.2e-12) "R"
        [("θ", (θ, true)), ("Φ", (φ, true))]) ∧
    NearGate (ccnot (Machine.double.arith codeTau)) Gate.CCNOT (24 * 1.2e-12) "CCNOT" [] ∧
    NearGate (h (Machine.double.arith codeTau)) Gate.H (25 * 1.2e-12) "H" [] := by
  have hacc : (Machine.double.arith codeTau).Accurate 8 1.2e-12 :=
    (C75_double (D := 8) (by norm_num) (by norm_num)).weaken (by unfold codeTau; norm_num)
  exact ⟨fun θ φ hθ hφ => (C62_rotations (hacc.mono (by norm_num)) (by unfold driftLimit; norm_num) hθ hφ).2.2.2,
    (C62_fixed hacc (by unfold driftLimit; norm_num)).2.1,
    C62_hadamard (hacc.mono (by norm_num)) (by unfold driftLimit; norm_num)⟩

/-- Arithmetic that makes gate matrices with a relative error of `1e-4`. -/
noncomputable def coarse : Arith := { Arith.exact codeTau with entries := fun _ _ a i j => 1.0001 * a.val i j }

/-- Some accuracy is needed: with gate matrices that are good to four digits, rotations raise an exception. -/
theorem C75_coarse : rx coarse 0 = .error .assertion := by
  have hm : ¬ allclose (coarse.matmul ((coarse.gate "rx" [0] (rxMatrix 0)).clean codeTau)
      ((coarse.gate "rx" [0] (rxMatrix 0)).clean codeTau).ct) (Arr.identity 2) := by
    intro hc
    have h0 := hc 0 (by norm_num [Arith.matmul, Arr.clean, Arith.gate, rxMatrix, Arr.ofRows]) 0
      (by norm_num [Arith.matmul, Arr.clean, Arr.ct, Arith.gate, rxMatrix, Arr.ofRows])
    have h1 : (coarse.matmul ((coarse.gate "rx" [0] (rxMatrix 0)).clean codeTau)
      ((coarse.gate "rx" [0] (rxMatrix 0)).clean codeTau).ct).val 0 0 = ((1.0001 * 1.0001 : ℝ) : ℂ) := by
      have c1 : Arr.cleanR codeTau (10001 / 10000) = 1.0001 := by
        unfold Arr.cleanR codeTau; rw [if_neg (by norm_num)]; norm_num
      have c0 : Arr.cleanR codeTau 0 = 0 := by unfold Arr.cleanR; simp
      simp [Arith.matmul, coarse, Arith.exact, Arr.matmul, Arr.clean, Arr.ct, Arith.gate, rxMatrix, Arr.ofRows,
        Finset.sum_range_succ, Complex.ext_iff, c0]
      norm_num [c1, c0]
    rw [h1, isclose, show (Arr.identity 2).val 0 0 = ((1 : ℝ) : ℂ) by simp [Arr.identity], ← Complex.ofReal_sub,
      Complex.norm_real, Complex.norm_real] at h0
    norm_num at h0
  unfold rx Unitary.new
  rw [assertE_of (by norm_num), ok_bind]
  simp only [Option.getD_some]
  rw [assertE_of ⟨rfl, rfl⟩, ok_bind, show coarse.tau = codeTau from rfl, assertE_of_not hm]
  rfl

end Stoq
