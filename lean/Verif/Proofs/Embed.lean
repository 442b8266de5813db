import Mathlib.LinearAlgebra.Matrix.Kronecker
import Verif.Proofs.Permute
import Verif.Proofs.Unitary
import Verif.Spec.Sequence

/-! `get_permute_matrix` and `get_full_unitary` compute `embed`. -/

namespace Stoq

open Matrix Kronecker

variable {n : ℕ} {a : List ℕ}

/-- Where the permutation sends basis state `c`. -/
def outIdx (n : ℕ) (a : List ℕ) (c : ℕ) : ℕ :=
  num n fun p => qubit n ((EntryVal.permuteOrder n a).idxOf p) c

theorem outIdx_lt (n : ℕ) (a : List ℕ) (c : ℕ) : outIdx n a c < 2 ^ n := num_lt fun _ _ => qubit_lt ..

/-- Qubit `a_k` goes to position `k`. -/
theorem idxOf_order_applied (hnd : a.Nodup) (hlt : ∀ q ∈ a, q < n) {k : ℕ} (hk : k < a.length) :
    (EntryVal.permuteOrder n a).idxOf k = a[k] := by
  have hq := hlt a[k] (List.getElem_mem hk)
  have h := EntryVal.permuteOrder_getElem? hnd hq
  rw [if_pos (List.getElem_mem hk), hnd.idxOf_getElem k hk] at h
  obtain ⟨h1, h2⟩ := List.getElem?_eq_some_iff.mp h
  conv_lhs => rw [← h2]
  exact (EntryVal.permuteOrder_nodup hnd hlt).idxOf_getElem _ h1

/-- Positions from `a.length` on are exactly those of the other qubits. -/
theorem order_rest (hnd : a.Nodup) (hlt : ∀ q ∈ a, q < n) (q : ℕ) :
    (q < n ∧ q ∉ a) ↔ ∃ j < n - a.length, (EntryVal.permuteOrder n a).idxOf (a.length + j) = q := by
  have hperm := EntryVal.permuteOrder_perm hnd hlt
  have hlen := EntryVal.permuteOrder_length (n := n) hnd
  have hle := EntryVal.length_le hnd hlt
  constructor
  · rintro ⟨hq, hqa⟩
    have h := EntryVal.permuteOrder_getElem? hnd hq
    rw [if_neg hqa] at h
    obtain ⟨h1, h2⟩ := List.getElem?_eq_some_iff.mp h
    refine ⟨_, ?_, by rw [← h2]; exact (EntryVal.permuteOrder_nodup hnd hlt).idxOf_getElem _ h1⟩
    have := List.mem_range.mp (hperm.mem_iff.mp (h2 ▸ List.getElem_mem h1))
    omega
  · rintro ⟨j, hj, rfl⟩
    have hmem : a.length + j ∈ EntryVal.permuteOrder n a :=
      hperm.mem_iff.mpr (List.mem_range.mpr (by omega))
    have hidx := List.idxOf_lt_length_of_mem hmem
    have hq : (EntryVal.permuteOrder n a).idxOf (a.length + j) < n := by omega
    refine ⟨hq, fun hmem' => ?_⟩
    have h := EntryVal.permuteOrder_getElem? hnd hq
    rw [if_pos hmem', List.getElem?_eq_getElem hidx, List.getElem_idxOf] at h
    have := List.idxOf_lt_length_of_mem hmem'
    simp only [Option.some.injEq] at h
    omega

theorem outIdx_div (hnd : a.Nodup) (hlt : ∀ q ∈ a, q < n) (c : ℕ) :
    outIdx n a c / 2 ^ (n - a.length) = gather n a c := by
  rw [outIdx, num_div (EntryVal.length_le hnd hlt) (fun _ _ => qubit_lt ..), gather_eq_num]
  refine num_congr fun k hk => ?_
  rw [idxOf_order_applied hnd hlt hk]; simp [hk]

theorem outIdx_mod (hnd : a.Nodup) (hlt : ∀ q ∈ a, q < n) (r c : ℕ) :
    outIdx n a r % 2 ^ (n - a.length) = outIdx n a c % 2 ^ (n - a.length) ↔ AgreeOff n a r c := by
  have hle := EntryVal.length_le hnd hlt
  rw [outIdx, outIdx, num_mod hle (fun _ _ => qubit_lt ..), num_mod hle (fun _ _ => qubit_lt ..),
    num_inj (fun _ _ => qubit_lt ..) (fun _ _ => qubit_lt ..)]
  constructor
  · intro h q hq hqa
    obtain ⟨j, hj, rfl⟩ := (order_rest hnd hlt q).mp ⟨hq, hqa⟩
    exact h j hj
  · intro h j hj
    obtain ⟨h1, h2⟩ := (order_rest hnd hlt _).mpr ⟨j, hj, rfl⟩
    exact h _ h1 h2

theorem outIdx_inj (hnd : a.Nodup) (hlt : ∀ q ∈ a, q < n) {r c : ℕ} (hr : r < 2 ^ n) (hc : c < 2 ^ n)
    (h : outIdx n a r = outIdx n a c) : r = c := by
  refine qubit_ext hr hc fun q hq => ?_
  by_cases hqa : q ∈ a
  · exact gather_eq_iff.mp (by rw [← outIdx_div hnd hlt, h, outIdx_div hnd hlt]) q hqa
  · exact (outIdx_mod hnd hlt r c).mp (by rw [h]) q hq hqa

/-- Split a basis state into the listed qubits and the rest. -/
noncomputable def splitEquiv (n : ℕ) (a : List ℕ) (hnd : a.Nodup) (hlt : ∀ q ∈ a, q < n) :
    Fin (2 ^ n) ≃ Fin (2 ^ a.length) × Fin (2 ^ (n - a.length)) :=
  Equiv.ofBijective (fun c => (⟨gather n a c, gather_lt n a c⟩,
      ⟨outIdx n a c % 2 ^ (n - a.length), Nat.mod_lt _ (Nat.two_pow_pos _)⟩)) <| by
    rw [Fintype.bijective_iff_injective_and_card]
    constructor
    · intro r c h
      simp only [Prod.mk.injEq, Fin.mk.injEq] at h
      refine Fin.ext (qubit_ext r.2 c.2 fun q hq => ?_)
      by_cases hqa : q ∈ a
      · exact gather_eq_iff.mp h.1 q hqa
      · exact (outIdx_mod hnd hlt r c).mp h.2 q hq hqa
    · simp only [Fintype.card_fin, Fintype.card_prod]
      rw [← pow_add, Nat.add_sub_cancel' (EntryVal.length_le hnd hlt)]

theorem embed_eq_submatrix (hnd : a.Nodup) (hlt : ∀ q ∈ a, q < n)
    (M : Matrix (Fin (2 ^ a.length)) (Fin (2 ^ a.length)) ℂ) :
    embed n a M = (M ⊗ₖ (1 : Matrix (Fin (2 ^ (n - a.length))) _ ℂ)).submatrix
      (splitEquiv n a hnd hlt) (splitEquiv n a hnd hlt) := by
  ext r c
  simp only [embed, submatrix_apply, kroneckerMap_apply, splitEquiv, Equiv.ofBijective_apply, one_apply,
    Fin.mk.injEq, outIdx_mod hnd hlt]
  split <;> simp

theorem embed_mul (hnd : a.Nodup) (hlt : ∀ q ∈ a, q < n)
    (A B : Matrix (Fin (2 ^ a.length)) (Fin (2 ^ a.length)) ℂ) :
    embed n a (A * B) = embed n a A * embed n a B := by
  simp only [embed_eq_submatrix hnd hlt, submatrix_mul_equiv, ← mul_kronecker_mul, mul_one]

theorem embed_one (hnd : a.Nodup) (hlt : ∀ q ∈ a, q < n) : embed n a 1 = 1 := by
  rw [embed_eq_submatrix hnd hlt, one_kronecker_one, submatrix_one_equiv]

theorem embed_smul (c : ℂ) (A : Matrix (Fin (2 ^ a.length)) (Fin (2 ^ a.length)) ℂ) :
    embed n a (c • A) = c • embed n a A := by
  ext r s; simp only [embed, Matrix.smul_apply]; split <;> simp

theorem AgreeOff.symm {r c : ℕ} (h : AgreeOff n a r c) : AgreeOff n a c r :=
  fun q hq hqa => (h q hq hqa).symm

theorem embed_conjTranspose (A : Matrix (Fin (2 ^ a.length)) (Fin (2 ^ a.length)) ℂ) :
    embed n a Aᴴ = (embed n a A)ᴴ := by
  ext r s
  simp only [embed, conjTranspose_apply]
  by_cases h : AgreeOff n a r s
  · simp [h, h.symm]
  · have : ¬ AgreeOff n a s r := fun h' => h h'.symm
    simp [h, this]

theorem embed_det (hnd : a.Nodup) (hlt : ∀ q ∈ a, q < n)
    (A : Matrix (Fin (2 ^ a.length)) (Fin (2 ^ a.length)) ℂ) :
    (embed n a A).det = A.det ^ (2 ^ (n - a.length)) := by
  rw [embed_eq_submatrix hnd hlt, det_submatrix_equiv_self, det_kronecker]; simp

theorem embed_mem_unitary (hnd : a.Nodup) (hlt : ∀ q ∈ a, q < n)
    {A : Matrix (Fin (2 ^ a.length)) (Fin (2 ^ a.length)) ℂ} (hA : A ∈ unitaryGroup _ ℂ) :
    embed n a A ∈ unitaryGroup _ ℂ := by
  rw [mem_unitaryGroup_iff, star_eq_conjTranspose] at *
  rw [← embed_conjTranspose, ← embed_mul hnd hlt, hA, embed_one hnd hlt]

theorem embed_mem_su (hnd : a.Nodup) (hlt : ∀ q ∈ a, q < n)
    {A : Matrix (Fin (2 ^ a.length)) (Fin (2 ^ a.length)) ℂ} (hA : A ∈ specialUnitaryGroup _ ℂ) :
    embed n a A ∈ specialUnitaryGroup _ ℂ := by
  rw [mem_specialUnitaryGroup_iff] at *
  exact ⟨embed_mem_unitary hnd hlt hA.1, by rw [embed_det hnd hlt, hA.2, one_pow]⟩

/-- Product of embeddings on disjoint qubits. -/
theorem embed_mul_disjoint {b : List ℕ} (hdisj : ∀ q ∈ a, q ∉ b)
    (A : Matrix (Fin (2 ^ a.length)) (Fin (2 ^ a.length)) ℂ)
    (B : Matrix (Fin (2 ^ b.length)) (Fin (2 ^ b.length)) ℂ) (ha : ∀ q ∈ a, q < n) (hb : ∀ q ∈ b, q < n)
    (r s : Fin (2 ^ n)) :
    (embed n a A * embed n b B) r s = if AgreeOff n (a ++ b) r s then
      A ⟨gather n a r, gather_lt n a r⟩ ⟨gather n a s, gather_lt n a s⟩ *
      B ⟨gather n b r, gather_lt n b r⟩ ⟨gather n b s, gather_lt n b s⟩ else 0 := by
  rw [Matrix.mul_apply]
  by_cases h : AgreeOff n (a ++ b) r s
  · rw [if_pos h]
    let f : ℕ → ℕ := fun q => if q ∈ a then qubit n q s else qubit n q r
    have hf : ∀ p < n, f p < 2 := fun p _ => by simp only [f]; split <;> exact qubit_lt ..
    let c : Fin (2 ^ n) := ⟨num n f, num_lt hf⟩
    have hc : ∀ q < n, qubit n q c = f q := fun q hq => qubit_num hq hf
    have h1 : AgreeOff n a r c := fun q hq hqa => by rw [hc q hq]; simp [f, hqa]
    have h2 : AgreeOff n b c s := fun q hq hqb => by
      rw [hc q hq]; simp only [f]; split
      · rfl
      · rename_i hqa; exact h q hq (by simp [hqa, hqb])
    have h3 : gather n a c = gather n a s := gather_eq_iff.mpr fun q hq => by
      rw [hc q (ha q hq)]; simp [f, hq]
    have h4 : gather n b c = gather n b r := gather_eq_iff.mpr fun q hq => by
      have hqa : q ∉ a := fun hqa => hdisj q hqa hq
      rw [hc q (hb q hq)]; simp [f, hqa]
    rw [Fintype.sum_eq_single c]
    · simp only [embed, if_pos h1, if_pos h2, h3, h4]
    · intro c' hne
      simp only [embed]
      by_cases h5 : AgreeOff n a r c'
      · by_cases h6 : AgreeOff n b c' s
        · refine absurd (Fin.ext (qubit_ext c'.2 c.2 fun q hq => ?_)) hne
          rw [hc q hq]; simp only [f]; split
          · rename_i hqa; exact h6 q hq (hdisj q hqa)
          · rename_i hqa; exact (h5 q hq hqa).symm
        · simp [h6]
      · simp [h5]
  · rw [if_neg h]
    refine Finset.sum_eq_zero fun c _ => ?_
    simp only [embed]
    by_cases h5 : AgreeOff n a r c
    · by_cases h6 : AgreeOff n b c s
      · refine absurd (fun q hq hqab => ?_) h
        simp only [List.mem_append, not_or] at hqab
        rw [h5 q hq hqab.1, h6 q hq hqab.2]
      · simp [h6]
    · simp [h5]

theorem embed_comm_disjoint {b : List ℕ} (hdisj : ∀ q ∈ a, q ∉ b)
    (A : Matrix (Fin (2 ^ a.length)) (Fin (2 ^ a.length)) ℂ)
    (B : Matrix (Fin (2 ^ b.length)) (Fin (2 ^ b.length)) ℂ) (ha : ∀ q ∈ a, q < n) (hb : ∀ q ∈ b, q < n) :
    embed n a A * embed n b B = embed n b B * embed n a A := by
  ext r s
  rw [embed_mul_disjoint hdisj A B ha hb, embed_mul_disjoint (fun q hq hqa => hdisj q hqa hq) B A hb ha]
  have : AgreeOff n (a ++ b) r s ↔ AgreeOff n (b ++ a) r s := by
    simp only [AgreeOff, List.mem_append, or_comm]
  simp only [this, mul_comm]

/-- The other qubits keep their relative order. -/
theorem idxOf_order_rest (hnd : a.Nodup) (hlt : ∀ q ∈ a, q < n) {j : ℕ}
    (hj : j < ((List.range n).filter fun q => q ∉ a).length) :
    (EntryVal.permuteOrder n a).idxOf (a.length + j) = ((List.range n).filter fun q => q ∉ a)[j] := by
  set rest := (List.range n).filter fun q => q ∉ a with hrest
  have hmem := List.getElem_mem hj
  set q := rest[j] with hq
  simp only [hrest, List.mem_filter, List.mem_range, decide_eq_true_eq] at hmem
  have h := EntryVal.permuteOrder_getElem? hnd hmem.1
  rw [if_neg hmem.2] at h
  have hsplit : List.range n = List.range q ++ q :: List.range' (q + 1) (n - (q + 1)) := by
    rw [List.range_eq_range', List.range_eq_range', ← List.range'_succ]
    have := List.range'_append_1 (s := 0) (m := q) (n := n - (q + 1) + 1)
    rw [Nat.zero_add] at this
    rw [this]; congr 1; omega
  have hcnt : ((List.range q).filter fun q => q ∉ a).length = j := by
    have hr2 : rest = (List.range q).filter (fun q => q ∉ a) ++
        q :: (List.range' (q + 1) (n - (q + 1))).filter (fun q => q ∉ a) := by
      rw [hrest, hsplit, List.filter_append, List.filter_cons_of_pos (by simpa using hmem.2)]
    have hndr : rest.Nodup := List.nodup_range.filter _
    have hlt' : ((List.range q).filter fun q => q ∉ a).length < rest.length := by rw [hr2]; simp
    refine (hndr.getElem_inj_iff (hi := hlt') (hj := hj)).mp ?_
    rw [← hq]
    conv_lhs => rw [List.getElem_of_eq hr2]
    simp
  rw [hcnt] at h
  obtain ⟨h1, h2⟩ := List.getElem?_eq_some_iff.mp h
  conv_lhs => rw [← h2]
  exact (EntryVal.permuteOrder_nodup hnd hlt).idxOf_getElem _ h1

/-- The permutation lists the qubits in `a` first, then the others in increasing order. -/
theorem outIdx_eq_gather (hnd : a.Nodup) (hlt : ∀ q ∈ a, q < n) (c : ℕ) :
    outIdx n a c = gather n (a ++ (List.range n).filter fun q => q ∉ a) c := by
  have hlen : (a ++ (List.range n).filter fun q => q ∉ a).length = n := by
    have hc := List.length_eq_countP_add_countP (fun q => decide (q ∈ a)) (l := List.range n)
    have h3 := (EntryVal.filter_range_perm hnd hlt).length_eq
    rw [← List.countP_eq_length_filter] at h3
    rw [List.length_range] at hc
    rw [List.length_append, ← List.countP_eq_length_filter]
    have : List.countP (fun q => decide (q ∉ a)) (List.range n)
        = List.countP (fun q => decide ¬ decide (q ∈ a) = true) (List.range n) := by
      apply List.countP_congr; intro q _; simp
    omega
  rw [gather_eq_num, hlen]
  refine num_congr fun p hp => ?_
  congr 1
  by_cases hpa : p < a.length
  · rw [idxOf_order_applied hnd hlt hpa]; simp [List.getElem?_append, hpa]
  · obtain ⟨j, rfl⟩ := Nat.exists_eq_add_of_le (not_lt.mp hpa)
    have hj : j < ((List.range n).filter fun q => q ∉ a).length := by
      rw [List.length_append] at hlen; omega
    rw [idxOf_order_rest hnd hlt hj, List.getD_eq_getElem?_getD, List.getElem?_append_right (by omega)]
    rw [Nat.add_sub_cancel_left, List.getElem?_eq_getElem hj]; rfl

theorem listMax_lt (hne : a ≠ []) (hlt : ∀ q ∈ a, q < n) : listMax a < n := by
  unfold listMax
  induction a with
  | nil => exact absurd rfl hne
  | cons q a ih =>
    rw [List.foldr_cons]
    by_cases ha : a = []
    · subst ha; simpa using hlt q (by simp)
    · exact max_lt (hlt q (by simp)) (ih ha fun x hx => hlt x (by simp [hx]))

theorem le_listMax {q : ℕ} (h : q ∈ a) : q ≤ listMax a := by
  unfold listMax
  induction a with
  | nil => simp at h
  | cons x a ih =>
    rw [List.foldr_cons]
    rcases List.mem_cons.mp h with rfl | h
    · exact le_max_left _ _
    · exact (ih h).trans (le_max_right _ _)

namespace EntryVal

variable {e : EntryVal}

/-- The array returned by `get_permute_matrix`. -/
noncomputable def permuteArr (n : ℕ) (a : List ℕ) : Arr where
  rows := 2 ^ n
  cols := 2 ^ n
  val := fun r c => if ((List.range (2 ^ n)).map fun c => outIdx n a c).getD r 0 = c then 1 else 0

theorem WF.dim_le (h : e.WF) (hf : e.Fits n) : e.getDimension ≤ 2 ^ n := by
  rw [h.dim]; exact Nat.pow_le_pow_right (by norm_num) (EntryVal.length_le h.nodup hf)

theorem WF.max_le (h : e.WF) (hf : e.Fits n) : 2 ^ (listMax e.applyTo + 1) ≤ 2 ^ n :=
  Nat.pow_le_pow_right (by norm_num) (listMax_lt h.nonempty hf)

theorem fits_of_max_le (h : 2 ^ (listMax e.applyTo + 1) ≤ 2 ^ n) : e.Fits n := by
  intro q hq
  have h1 := (Nat.pow_le_pow_iff_right (by norm_num)).mp h
  have := le_listMax hq
  omega

theorem getPermuteMatrix_eq (h : e.WF) (hf : e.Fits n) :
    e.getPermuteMatrix (2 ^ n) = .ok (permuteArr n e.applyTo) := by
  unfold getPermuteMatrix
  rw [assertE_of (h.dim_le hf), ok_bind, assertE_of (h.max_le hf), ok_bind]
  have : intLog2 (2 ^ n) = n := Nat.log_pow (by norm_num) n
  simp only [this]
  rw [permInds_eq (permuteOrder_perm h.nodup hf), ok_bind, raiseUnless_of (by simp), ok_bind]
  rfl

theorem permuteArr_val {r c : ℕ} (hr : r < 2 ^ n) :
    (permuteArr n a).val r c = if outIdx n a r = c then 1 else 0 := by
  simp [permuteArr, hr]

/-- Conjugating by the permutation relabels rows and columns. -/
theorem permute_conj (E : Arr) (hc : E.cols = 2 ^ n) :
    (((permuteArr n a).matmul E).matmul (permuteArr n a).transpose).toMatrix (2 ^ n) =
      Matrix.of fun r c : Fin (2 ^ n) => E.val (outIdx n a r) (outIdx n a c) := by
  ext r c
  simp only [Arr.toMatrix, Arr.matmul, Arr.transpose, hc, permuteArr_val r.2, permuteArr_val c.2, of_apply]
  have h1 : outIdx n a r ∈ Finset.range (permuteArr n a).cols := Finset.mem_range.mpr (outIdx_lt ..)
  have h2 : outIdx n a c ∈ Finset.range (2 ^ n) := Finset.mem_range.mpr (outIdx_lt ..)
  simp [Finset.sum_ite_eq, h1, h2]

/-- The array stored by `get_full_unitary`. -/
noncomputable def fullArr (e : EntryVal) (n : ℕ) : Arr :=
  ((permuteArr n e.applyTo).matmul
    (e.unitary.matrix.kron (Arr.identity (2 ^ n / e.getDimension)))).matmul (permuteArr n e.applyTo).transpose

theorem fullArr_toMatrix (h : e.WF) (hf : e.Fits n) (hc : e.unitary.matrix.cols = e.unitary.matrix.rows) :
    (e.fullArr n).toMatrix (2 ^ n) = embed n e.applyTo (e.unitary.matrix.toMatrix _) := by
  have hle := EntryVal.length_le h.nodup hf
  have hdiv : 2 ^ n / e.getDimension = 2 ^ (n - e.applyTo.length) := by
    rw [h.dim, Nat.pow_div hle (by norm_num)]
  have hr : e.unitary.matrix.rows = 2 ^ e.applyTo.length := h.dim
  have hmul : 2 ^ e.applyTo.length * 2 ^ (n - e.applyTo.length) = 2 ^ n := by
    rw [← pow_add, Nat.add_sub_cancel' hle]
  unfold fullArr
  rw [permute_conj _ (by simp only [Arr.kron, Arr.identity, hdiv, hc, hr, hmul])]
  ext r c
  simp only [hdiv, Arr.kron, Arr.identity, outIdx_div h.nodup hf, outIdx_mod h.nodup hf, embed,
    Arr.toMatrix, mul_ite, mul_one, mul_zero, of_apply]

/-- `get_full_unitary` on exact data. -/
theorem fullUnitary_eq (h : e.WF) (hf : e.Fits n) (hu : e.unitary.Exact (2 ^ e.applyTo.length)) :
    e.fullUnitary 0 (2 ^ n) = .ok ⟨e.fullArr n, e.unitary.operationName, e.unitary.parameterDict, false,
      e.applyTo⟩ := by
  have hle := EntryVal.length_le h.nodup hf
  have hdiv : 2 ^ n / e.getDimension = 2 ^ (n - e.applyTo.length) := by
    rw [h.dim, Nat.pow_div hle (by norm_num)]
  have hpos : 0 < 2 ^ n / e.getDimension := by rw [hdiv]; exact Nat.two_pow_pos _
  have hmul : 2 ^ e.applyTo.length * 2 ^ (n - e.applyTo.length) = 2 ^ n := by
    rw [← pow_add, Nat.add_sub_cancel' hle]
  unfold fullUnitary
  rw [assertE_of (h.dim_le hf), ok_bind, Unitary.identity_eq hpos, ok_bind]
  have hI : Unitary.Exact ⟨Arr.identity (2 ^ n / e.getDimension), "I", [], false, []⟩
      (2 ^ n / e.getDimension) := ⟨hpos, rfl, rfl, by
        simp only [Arr.toMatrix_identity]; exact one_mem _⟩
  rw [Unitary.tensor_eq hu hI, ok_bind, assertE_of, ok_bind, getPermuteMatrix_eq h hf, ok_bind]
  · simp only [Unitary.getMatrix]
    have := Unitary.new_su (d := 2 ^ n) (a := e.fullArr n) (Nat.two_pow_pos n) rfl rfl (by
      rw [fullArr_toMatrix h hf (by rw [hu.cols, hu.rows])]
      exact embed_mem_su h.nodup hf hu.2.2.2)
      (some e.unitary.operationName) (some e.unitary.parameterDict) false e.applyTo
    exact this
  · simp only [Unitary.getDimension, Arr.kron, Arr.identity, hdiv, hu.rows, hmul]

theorem fullUnitary_exact (h : e.WF) (hf : e.Fits n) (hu : e.unitary.Exact (2 ^ e.applyTo.length)) :
    ∃ f, e.fullUnitary 0 (2 ^ n) = .ok f ∧ f.Exact (2 ^ n) ∧
      f.matrix.toMatrix (2 ^ n) = embed n e.applyTo (e.unitary.matrix.toMatrix _) := by
  have hm := fullArr_toMatrix h hf (by rw [hu.cols, hu.rows])
  refine ⟨_, fullUnitary_eq h hf hu, ⟨Nat.two_pow_pos n, rfl, rfl, ?_⟩, hm⟩
  exact hm ▸ embed_mem_su h.nodup hf hu.2.2.2

theorem fullUnitary_not_fits (h : e.WF) (hf : ¬ e.Fits n) (hu : e.unitary.Exact (2 ^ e.applyTo.length)) :
    e.fullUnitary 0 (2 ^ n) = .error .assertion := by
  unfold fullUnitary
  by_cases hle : e.getDimension ≤ 2 ^ n
  · rw [assertE_of hle, ok_bind]
    have hle' : e.applyTo.length ≤ n := by
      rw [h.dim] at hle; exact (Nat.pow_le_pow_iff_right (by norm_num)).mp hle
    have hdiv : 2 ^ n / e.getDimension = 2 ^ (n - e.applyTo.length) := by
      rw [h.dim, Nat.pow_div hle' (by norm_num)]
    have hpos : 0 < 2 ^ n / e.getDimension := by rw [hdiv]; exact Nat.two_pow_pos _
    have hmul : 2 ^ e.applyTo.length * 2 ^ (n - e.applyTo.length) = 2 ^ n := by
      rw [← pow_add, Nat.add_sub_cancel' hle']
    have hI : Unitary.Exact ⟨Arr.identity (2 ^ n / e.getDimension), "I", [], false, []⟩
        (2 ^ n / e.getDimension) := ⟨hpos, rfl, rfl, by
          simp only [Arr.toMatrix_identity]; exact one_mem _⟩
    rw [Unitary.identity_eq hpos, ok_bind, Unitary.tensor_eq hu hI, ok_bind, assertE_of, ok_bind]
    · unfold getPermuteMatrix
      rw [assertE_of hle, ok_bind, assertE_of_not (fun h' => hf (fits_of_max_le h'))]; rfl
    · simp only [Unitary.getDimension, Arr.kron, Arr.identity, hdiv, hu.rows, hmul]
  · rw [assertE_of_not hle]; rfl

theorem permInds_length {m : ℕ} {order l : List ℕ} (h : permInds (List.replicate m 2) order = .ok l) :
    l.length = 2 ^ m := by
  have hs := (assertE_bind_eq_ok.mp h).1
  have hp : order.Perm (List.range m) := by
    have := (List.mergeSort_perm order (fun a b => decide (a ≤ b))).symm
    rw [hs, List.length_replicate] at this; exact this
  rw [permInds_eq hp] at h
  simp only [Except.ok.injEq] at h
  rw [← h]; simp

/-- Only power-of-two systems can host entries. -/
theorem getPermuteMatrix_pow {D : ℕ} {P : Arr} (h : e.getPermuteMatrix D = .ok P) : ∃ k, D = 2 ^ k := by
  unfold getPermuteMatrix at h
  obtain ⟨-, h⟩ := assertE_bind_eq_ok.mp h
  obtain ⟨-, h⟩ := assertE_bind_eq_ok.mp h
  obtain ⟨l, hl, h⟩ := bind_eq_ok.mp h
  obtain ⟨hlen, -⟩ := raiseUnless_bind_eq_ok.mp h
  exact ⟨_, hlen.symm.trans (permInds_length hl)⟩

theorem fullUnitary_pow {τ : Arith} {D : ℕ} {f : Unitary} (h : e.fullUnitary τ D = .ok f) : ∃ k, D = 2 ^ k := by
  unfold fullUnitary at h
  obtain ⟨-, h⟩ := assertE_bind_eq_ok.mp h
  obtain ⟨_, -, h⟩ := bind_eq_ok.mp h
  obtain ⟨_, -, h⟩ := bind_eq_ok.mp h
  obtain ⟨-, h⟩ := assertE_bind_eq_ok.mp h
  obtain ⟨P, hP, -⟩ := bind_eq_ok.mp h
  exact getPermuteMatrix_pow hP

end EntryVal

end Stoq
