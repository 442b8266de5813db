import Verif.Proofs.Gates
import Verif.Proofs.Sequence
import Mathlib.Analysis.Normed.Algebra.MatrixExponential
import Mathlib.Analysis.SpecialFunctions.Exponential

/-! # Lemmas about the global Mølmer-Sørensen gate -/

namespace Stoq

open Matrix Complex

namespace Gate

section
variable {ι : Type*} [DecidableEq ι] [Fintype ι]

theorem exp_idempotent {Q : Matrix ι ι ℂ} (hQ : Q * Q = Q) (t : ℂ) :
    NormedSpace.exp (t • Q) = 1 + (Complex.exp t - 1) • Q := by
  have hpow : ∀ n : ℕ, Q ^ n = Q + if n = 0 then 1 - Q else 0 := by
    intro n
    rcases Nat.eq_zero_or_pos n with rfl | hn
    · simp
    · rw [if_neg hn.ne', add_zero]
      exact IsIdempotentElem.pow_eq hQ hn.ne'
  rw [NormedSpace.exp_eq_tsum ℂ]
  refine HasSum.tsum_eq ?_
  have h1 : HasSum (fun n : ℕ => ((n.factorial : ℂ)⁻¹ • t ^ n)) (Complex.exp t) := by
    rw [Complex.exp_eq_exp_ℂ]
    exact NormedSpace.exp_series_hasSum_exp' (𝕂 := ℂ) t
  have h2 : HasSum (fun n : ℕ => if n = 0 then 1 - Q else 0) (1 - Q) := hasSum_ite_eq 0 (1 - Q)
  have h3 := (h1.smul_const Q).add h2
  have e : Complex.exp t • Q + (1 - Q) = 1 + (Complex.exp t - 1) • Q := by module
  rw [e] at h3
  have hf : ∀ n : ℕ, (n.factorial : ℂ)⁻¹ • (t • Q) ^ n =
      ((n.factorial : ℂ)⁻¹ • t ^ n) • Q + if n = 0 then 1 - Q else 0 := by
    intro n
    rw [smul_pow, hpow, smul_add, smul_add]
    congr 1
    · rw [smul_smul]; rfl
    · split
      · rename_i h; subst h; simp
      · simp
  rw [funext hf]
  exact h3

/-- Rotations are exponentials. -/
theorem rot_eq_exp {P : Matrix ι ι ℂ} (hP : P * P = 1) (θ : ℝ) :
    rot P θ = NormedSpace.exp ((-I * (θ / 2 : ℝ)) • P) := by
  set a : ℂ := -I * (θ / 2 : ℝ) with ha
  set Q : Matrix ι ι ℂ := (1 / 2 : ℂ) • (1 + P) with hQ
  have hQQ : Q * Q = Q := by
    rw [hQ, smul_mul_smul_comm, add_mul, mul_add, mul_add, hP]
    simp only [one_mul, mul_one]
    module
  have hsplit : a • P = (2 * a) • Q + (-a) • (1 : Matrix ι ι ℂ) := by rw [hQ]; module
  rw [hsplit, Matrix.exp_add_of_commute _ _ ((Commute.one_right _).smul_right _), exp_idempotent hQQ,
    exp_idempotent (one_mul 1)]
  have e1 : exp (-a) = Real.cos (θ / 2) + Real.sin (θ / 2) * I := by
    rw [show -a = ((θ / 2 : ℝ) : ℂ) * I by rw [ha]; ring, exp_mul_I, ofReal_cos, ofReal_sin]
  have e2 : exp a = Real.cos (θ / 2) - Real.sin (θ / 2) * I := by
    rw [show a = ((-(θ / 2) : ℝ) : ℂ) * I by rw [ha]; push_cast; ring, exp_mul_I, ← ofReal_cos, ← ofReal_sin,
      Real.cos_neg, Real.sin_neg]; push_cast; ring
  have e3 : exp (2 * a) * exp (-a) = exp a := by rw [← exp_add]; congr 1; ring
  have : (1 + (exp (2 * a) - 1) • Q) * (1 + (exp (-a) - 1) • (1 : Matrix ι ι ℂ)) =
      exp (-a) • (1 : Matrix ι ι ℂ) + (exp (2 * a) * exp (-a) - exp (-a)) • Q := by
    rw [show (1 : Matrix ι ι ℂ) + (exp (-a) - 1) • (1 : Matrix ι ι ℂ) = exp (-a) • (1 : Matrix ι ι ℂ) by module,
      mul_smul_comm, mul_one]
    module
  rw [this, e3, e1, e2, hQ, rot]
  module

end

theorem XX_apply (x y : Fin 4) (a b c d : Fin 2) (hx : x.val = 2 * a.val + b.val)
    (hy : y.val = 2 * c.val + d.val) : XX x y = X a c * X b d := by
  have key : ∀ (a b c d : Fin 2) (h : 2 * a.val + b.val < 4) (h' : 2 * c.val + d.val < 4),
      XX ⟨2 * a.val + b.val, h⟩ ⟨2 * c.val + d.val, h'⟩ = X a c * X b d := by
    intro a b c d h h'
    fin_cases a <;> fin_cases b <;> fin_cases c <;> fin_cases d <;> simp [XX, X]
  have e1 : x = ⟨2 * a.val + b.val, by omega⟩ := Fin.ext hx
  have e2 : y = ⟨2 * c.val + d.val, by omega⟩ := Fin.ext hy
  rw [e1, e2, key]

/-- `X ⊗ X` on two qubits is the product of the two single-qubit `X`. -/
theorem embed_XX {n i j : ℕ} (hij : i ≠ j) (hi : i < n) (hj : j < n) :
    embed n [i, j] XX = embed n [i] X * embed n [j] X := by
  ext r s
  rw [embed_mul_disjoint (a := [i]) (b := [j]) (by simpa using hij) X X (by simpa using hi) (by simpa using hj)]
  change (if AgreeOff n [i, j] r s then _ else _) = if AgreeOff n [i, j] r s then _ else _
  refine if_congr Iff.rfl ?_ rfl
  have h1 : ∀ q c, gather n [q] c = qubit n q c := by intro q c; simp [gather]
  have h2 : ∀ c, gather n [i, j] c = 2 * qubit n i c + qubit n j c := by intro c; simp [gather]
  exact XX_apply _ _ _ _ _ _ ((h2 r).trans (by rw [← h1 i, ← h1 j])) ((h2 s).trans (by rw [← h1 i, ← h1 j]))

theorem X_commute {n i j : ℕ} (hi : i < n) (hj : j < n) : Commute (embed n [i] X) (embed n [j] X) := by
  by_cases h : i = j
  · subst h; exact Commute.refl _
  · exact embed_comm_disjoint (a := [i]) (b := [j]) (by simpa using h) X X (by simpa using hi) (by simpa using hj)

/-- The generators of the pairwise gates commute. -/
theorem pair_commute {n i j k l : ℕ} (hi : i < n) (hj : j < n) (hk : k < n) (hl : l < n) :
    Commute (embed n [i] X * embed n [j] X) (embed n [k] X * embed n [l] X) :=
  ((X_commute hi hk).mul_right (X_commute hi hl)).mul_left ((X_commute hj hk).mul_right (X_commute hj hl))

theorem pair_sq {n i j : ℕ} (hij : i ≠ j) (hi : i < n) (hj : j < n) :
    (embed n [i] X * embed n [j] X) * (embed n [i] X * embed n [j] X) = 1 := by
  rw [← embed_XX hij hi hj]
  have hnd : [i, j].Nodup := by simpa using hij
  have hlt : ∀ q ∈ [i, j], q < n := by simp [hi, hj]
  have := embed_mul hnd hlt XX XX
  rw [← this]
  have h2 : (XX * XX : Matrix (Fin 4) (Fin 4) ℂ) = 1 := XX_sq
  change embed n [i, j] (XX * XX : Matrix (Fin 4) (Fin 4) ℂ) = 1
  rw [h2]
  exact embed_one hnd hlt

/-- The embedded `xx` gate. -/
theorem embed_rot_XX {n i j : ℕ} (hij : i ≠ j) (hi : i < n) (hj : j < n) (θ : ℝ) :
    embed n [i, j] (rot XX (2 * θ)) = NormedSpace.exp ((-I * θ) • (embed n [i] X * embed n [j] X)) := by
  have hnd : [i, j].Nodup := by simpa using hij
  have hlt : ∀ q ∈ [i, j], q < n := by simp [hi, hj]
  have h1 : embed n [i, j] (rot XX (2 * θ)) = rot (embed n [i, j] XX) (2 * θ) := by
    have hone : embed n [i, j] (1 : Matrix (Fin 4) (Fin 4) ℂ) = 1 := embed_one hnd hlt
    have hsub : ∀ A B : Matrix (Fin (2 ^ [i, j].length)) (Fin (2 ^ [i, j].length)) ℂ,
        embed n [i, j] (A - B) = embed n [i, j] A - embed n [i, j] B := by
      intro A B
      ext r s
      simp only [embed, Matrix.sub_apply]
      split <;> simp
    unfold rot
    refine (hsub _ _).trans ?_
    rw [← hone]
    exact congrArg₂ _ (embed_smul _ _) (embed_smul _ _)
  rw [h1, embed_XX hij hi hj, rot_eq_exp (pair_sq hij hi hj)]
  congr 3
  push_cast; ring

/-- All pairs `i < j < n`, each once. -/
def AllPairs (n : ℕ) (l : List (ℕ × ℕ)) : Prop := l.Nodup ∧ ∀ i j, (i, j) ∈ l ↔ i < j ∧ j < n

theorem sum_allPairs {n : ℕ} {l : List (ℕ × ℕ)} (h : AllPairs n l) :
    (l.map fun p => embed n [p.1] X * embed n [p.2] X).sum = pairSum n := by
  rw [← List.sum_toFinset _ h.1]
  unfold pairSum
  rw [Finset.sum_sigma']
  refine Finset.sum_nbij' (fun p => ⟨p.1, p.2⟩) (fun x => (x.1, x.2)) ?_ ?_ ?_ ?_ ?_
  · rintro ⟨i, j⟩ hp
    have := (h.2 i j).mp (by simpa using hp)
    simp; omega
  · rintro ⟨i, j⟩ hp
    simp at hp
    simpa using (h.2 i j).mpr ⟨by omega, by omega⟩
  · rintro ⟨i, j⟩ _; rfl
  · rintro ⟨i, j⟩ _; rfl
  · rintro ⟨i, j⟩ _; rfl

/-- Product of commuting exponentials in list order. -/
theorem exp_list {n : ℕ} (c : ℂ) (l : List (ℕ × ℕ)) (hl : ∀ p ∈ l, p.1 < n ∧ p.2 < n)
    (acc : Matrix (Fin (2 ^ n)) (Fin (2 ^ n)) ℂ) :
    l.foldl (fun acc p => NormedSpace.exp (c • (embed n [p.1] X * embed n [p.2] X)) * acc) acc =
      NormedSpace.exp (c • (l.map fun p => embed n [p.1] X * embed n [p.2] X).sum) * acc := by
  induction l generalizing acc with
  | nil => simp
  | cons p l ih =>
    have hp := hl p List.mem_cons_self
    have hl' := fun q hq => hl q (List.mem_cons_of_mem _ hq)
    rw [List.foldl_cons, ih hl', List.map_cons, List.sum_cons, smul_add]
    have hc : Commute (c • (embed n [p.1] X * embed n [p.2] X))
        (c • (l.map fun p => embed n [p.1] X * embed n [p.2] X).sum) := by
      refine (Commute.smul_left ?_ c).smul_right c
      refine Commute.list_sum_right _ _ fun x hx => ?_
      obtain ⟨q, hq, rfl⟩ := List.mem_map.mp hx
      exact pair_commute hp.1 hp.2 (hl' q hq).1 (hl' q hq).2
    rw [Matrix.exp_add_of_commute _ _ hc, ← Matrix.mul_assoc]
    congr 1
    rw [← Matrix.exp_add_of_commute _ _ hc, ← Matrix.exp_add_of_commute _ _ hc.symm, add_comm]

theorem gmsPairs_all (n : ℕ) : AllPairs n (UnitaryDefinitions.gmsPairs n) := by
  unfold UnitaryDefinitions.gmsPairs
  constructor
  · rw [List.nodup_flatMap]
    constructor
    · intro i _
      refine (List.nodup_range').map ?_
      intro a b h
      simpa using h
    · refine List.Pairwise.imp_of_mem ?_ (List.pairwise_lt_range)
      intro a b _ _ hab x hx hy
      obtain ⟨_, _, rfl⟩ := List.mem_map.mp hx
      obtain ⟨_, _, h⟩ := List.mem_map.mp hy
      simp at h
      omega
  · intro i j
    simp only [List.mem_flatMap, List.mem_range, List.mem_map, List.mem_range'_1, Prod.mk.injEq]
    constructor
    · rintro ⟨a, ha, b, hb, rfl, rfl⟩; omega
    · intro h; exact ⟨i, by omega, j, by omega, rfl, rfl⟩

end Gate

end Stoq
