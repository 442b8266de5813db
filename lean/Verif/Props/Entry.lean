import Verif.Proofs.Embed
import Verif.Model.Parameterized
import Mathlib.Tactic.IntervalCases

/-!
# Properties C08 - C11, C13: entries and their embedding into a system of qubits

`embed n qs M` (Verif.Spec.Embed) is the operator acting as `M` on the qubits `qs` of an `n`-qubit system.
-/

namespace Stoq

open Matrix

variable {n : ℕ} {qs : List ℕ} {u v : Unitary}

/-! ## C11: constructors -/

/-- `UnitarySequenceEntry(u, qs)` succeeds exactly on well-formed qubit lists, and stores its arguments. -/
theorem C11_entry_accepts_iff (u : Unitary) (l : List ℤ) (e : EntryVal) :
    EntryVal.new u l = .ok e ↔
      (l ≠ [] ∧ l.Nodup ∧ (∀ a ∈ l, 0 ≤ a) ∧ 2 ^ l.length = u.getDimension) ∧
        e.unitary = u ∧ e.applyTo.map (fun q : ℕ => (q : ℤ)) = l := by
  unfold EntryVal.new
  rw [assertE_bind_eq_ok, assertE_bind_eq_ok, raiseUnless_bind_eq_ok, assertE_bind_eq_ok]
  simp only [pure_except, Except.ok.injEq]
  have hmap : (∀ a ∈ l, 0 ≤ a) → (l.map Int.toNat).map (fun q : ℕ => (q : ℤ)) = l := by
    intro h
    rw [List.map_map]
    conv_rhs => rw [← List.map_id l]
    exact List.map_congr_left fun a ha => Int.toNat_of_nonneg (h a ha)
  constructor
  · rintro ⟨h1, h2, h3, h4, rfl⟩
    exact ⟨⟨h3, h1, h4, h2⟩, rfl, hmap h4⟩
  · rintro ⟨⟨h3, h1, h4, h2⟩, rfl, h6⟩
    refine ⟨h1, h2, h3, h4, ?_⟩
    cases e
    simp only [EntryVal.mk.injEq, true_and]
    rw [← h6, List.map_map]
    simp [Function.comp_def]

/-- Rejected lists raise AssertionError, except that the empty list for a one-dimensional unitary raises
ValueError. -/
theorem C11_entry_rejects (u : Unitary) (l : List ℤ) :
    (l = [] ∧ u.getDimension = 1 → EntryVal.new u l = .error .valueError) ∧
    (¬ l.Nodup ∨ 2 ^ l.length ≠ u.getDimension ∨ (l ≠ [] ∧ ∃ a ∈ l, a < 0) →
      EntryVal.new u l = .error .assertion) := by
  unfold EntryVal.new
  constructor
  · rintro ⟨rfl, h⟩
    rw [assertE_of List.nodup_nil, ok_bind, assertE_of (by simp [h]), ok_bind,
      raiseUnless_of_not (by simp)]; rfl
  · intro h
    by_cases h1 : l.Nodup
    · rw [assertE_of h1, ok_bind]
      by_cases h2 : 2 ^ l.length = u.getDimension
      · rw [assertE_of h2, ok_bind]
        rcases h with h | h | ⟨h3, a, ha, hneg⟩
        · exact absurd h1 h
        · exact absurd h2 h
        · rw [raiseUnless_of h3, ok_bind, assertE_of_not (fun h => absurd (h a ha) (not_le.mpr hneg))]; rfl
      · rw [assertE_of_not h2]; rfl
    · rw [assertE_of_not h1]; rfl

/-- `UnitaryPrimitive(u, allowed)` accepts exactly: no restriction, or a (possibly empty) list of well-formed
qubit lists. -/
theorem C11_primitive_accepts_iff (u : Unitary ⊕ ParamUnitary) (allowed : Option (List (List ℤ)))
    (p : Primitive) :
    Primitive.new u allowed = .ok p ↔
      (∀ lists, allowed = some lists → ∀ l ∈ lists,
        l ≠ [] ∧ l.Nodup ∧ (∀ a ∈ l, 0 ≤ a) ∧ 2 ^ l.length = p.getDimension) ∧
        p.unitary = u ∧ p.allowedApplyTo = allowed := by
  unfold Primitive.new
  cases allowed with
  | none =>
    simp only [pure_except, Except.ok.injEq]
    constructor
    · rintro rfl; exact ⟨by simp, rfl, rfl⟩
    · rintro ⟨-, rfl, h⟩; cases p; simp_all
  | some lists =>
    simp only
    rw [assertE_bind_eq_ok, assertE_bind_eq_ok, raiseUnless_bind_eq_ok, assertE_bind_eq_ok]
    simp only [pure_except, Except.ok.injEq, Option.some.injEq]
    constructor
    · rintro ⟨h1, h2, h3, h4, rfl⟩
      exact ⟨by rintro _ rfl l hl; exact ⟨h3 l hl, h1 l hl, h4 l hl, h2 l hl⟩, rfl, rfl⟩
    · rintro ⟨h, rfl, h'⟩
      cases p with | mk pu pa =>
      simp only at h'
      subst h'
      have h := h lists rfl
      exact ⟨fun l hl => (h l hl).2.1, fun l hl => (h l hl).2.2.2, fun l hl => (h l hl).1,
        fun l hl => (h l hl).2.2.1, rfl⟩

/-- No restriction and an empty list of allowed qubit lists are both accepted. -/
theorem C11_primitive_trivial (u : Unitary ⊕ ParamUnitary) :
    Primitive.new u none = .ok ⟨u, none⟩ ∧ Primitive.new u (some []) = .ok ⟨u, some []⟩ := by
  constructor <;> rw [C11_primitive_accepts_iff] <;> simp

/-- A two-qubit entry on qubits 2 and 0 is accepted. -/
example : EntryVal.new (Unitary.plain (Arr.identity 4)) [2, 0] = .ok ⟨Unitary.plain (Arr.identity 4), [2, 0]⟩ := by
  rw [C11_entry_accepts_iff]
  exact ⟨⟨by decide, by decide, by decide, rfl⟩, rfl, rfl⟩

/-! ## C08: the embedding -/

theorem entry_new_ok (hne : qs ≠ []) (hnd : qs.Nodup) (hu : u.getDimension = 2 ^ qs.length) :
    EntryVal.new u (qs.map fun q : ℕ => (q : ℤ)) = .ok ⟨u, qs⟩ := by
  rw [C11_entry_accepts_iff]
  refine ⟨⟨by simpa using hne, hnd.map (fun a b h => by simpa using h), ?_, by simpa using hu.symm⟩, rfl, rfl⟩
  intro a ha
  obtain ⟨q, -, rfl⟩ := List.mem_map.mp ha
  exact Int.natCast_nonneg q

/-- An entry on distinct qubits below `n` is accepted, its full unitary on `n` qubits never raises, and it is
the operator acting as `u` on exactly the given qubits in the given order; the display data is kept. -/
theorem C08_full_unitary (hne : qs ≠ []) (hnd : qs.Nodup) (hlt : ∀ q ∈ qs, q < n)
    (hu : u.Exact (2 ^ qs.length)) :
    ∃ e f, EntryVal.new u (qs.map fun q : ℕ => (q : ℤ)) = .ok e ∧ e.fullUnitary 0 (2 ^ n) = .ok f ∧
      f.Holds (embed n qs (u.matrix.toMatrix _)) ∧ f.Exact (2 ^ n) ∧ f.operationName = u.operationName ∧
      f.parameterDict = u.parameterDict ∧ f.applyTo = qs := by
  have hwf : EntryVal.WF ⟨u, qs⟩ := ⟨hnd, hne, hu.dim⟩
  have hm := EntryVal.fullArr_toMatrix (n := n) hwf hlt (by rw [hu.cols, hu.rows])
  refine ⟨_, _, entry_new_ok hne hnd hu.dim, EntryVal.fullUnitary_eq hwf hlt hu, ⟨rfl, rfl, hm⟩,
    ⟨Nat.two_pow_pos n, rfl, rfl, ?_⟩, rfl, rfl, rfl⟩
  exact hm ▸ embed_mem_su hnd hlt hu.2.2.2

/-- The defining formula of `embed`, entry by entry: zero unless the basis states agree on all other qubits, and
otherwise the matrix element selected by the listed qubits. -/
theorem C08_entries (M : Matrix (Fin (2 ^ qs.length)) (Fin (2 ^ qs.length)) ℂ) (r c : Fin (2 ^ n)) :
    (∀ i j : Fin (2 ^ qs.length),
      (∀ k (hk : k < qs.length), qubit qs.length k i = qubit n qs[k] r) →
      (∀ k (hk : k < qs.length), qubit qs.length k j = qubit n qs[k] c) →
      (∀ q < n, q ∉ qs → qubit n q r = qubit n q c) → embed n qs M r c = M i j) ∧
    (¬ (∀ q < n, q ∉ qs → qubit n q r = qubit n q c) → embed n qs M r c = 0) := by
  have key : ∀ (i : Fin (2 ^ qs.length)) (r : ℕ),
      (∀ k (hk : k < qs.length), qubit qs.length k i = qubit n qs[k] r) → gather n qs r = i := by
    intro i r h
    rw [gather_eq_num, ← num_qubit i.2]
    exact num_congr fun k hk => by rw [h k hk]; simp [hk]
  refine ⟨fun i j hi hj h => ?_, fun h => if_neg h⟩
  have h1 : (⟨gather n qs r, gather_lt n qs r⟩ : Fin (2 ^ qs.length)) = i := Fin.ext (key i r hi)
  have h2 : (⟨gather n qs c, gather_lt n qs c⟩ : Fin (2 ^ qs.length)) = j := Fin.ext (key j c hj)
  rw [embed, if_pos (show AgreeOff n qs r c from h), h1, h2]

/-- An entry that does not fit on `n` qubits raises AssertionError. -/
theorem C08_rejects (hne : qs ≠ []) (hnd : qs.Nodup) (hu : u.Exact (2 ^ qs.length)) (q : ℕ) (hq : q ∈ qs)
    (hqn : n ≤ q) : EntryVal.fullUnitary 0 ⟨u, qs⟩ (2 ^ n) = .error .assertion :=
  EntryVal.fullUnitary_not_fits ⟨hnd, hne, hu.dim⟩ (fun h => absurd (h q hq) (not_lt.mpr hqn)) hu

/-- The hypotheses of `C08_full_unitary` are met by a two-qubit operation on qubits 2 and 0 of 3. -/
example : ∃ u : Unitary, u.Exact (2 ^ [2, 0].length) ∧ [2, 0].Nodup ∧ ∀ q ∈ [2, 0], q < 3 :=
  ⟨Unitary.plain (Arr.identity 4), ⟨by norm_num, rfl, rfl, by
    show (Arr.identity 4).toMatrix 4 ∈ _
    rw [Arr.toMatrix_identity]; exact one_mem _⟩, by decide, by decide⟩

/-- Qubit 0 is the most significant bit: `embed` on qubit 0 of 2 mixes basis states 0 and 2. -/
example (M : Matrix (Fin 2) (Fin 2) ℂ) : embed 2 [0] M 0 2 = M 0 1 ∧ embed 2 [0] M 0 1 = 0 ∧
    embed 2 [1] M 0 1 = M 0 1 := by
  refine ⟨?_, ?_, ?_⟩
  · exact if_pos (show AgreeOff 2 [0] 0 2 by decide)
  · exact if_neg (show ¬ AgreeOff 2 [0] 0 1 by decide)
  · exact if_pos (show AgreeOff 2 [1] 0 1 by decide)

/-- The order of the listed qubits matters: with control 1 and target 0 the roles of the bits are exchanged. -/
example (M : Matrix (Fin 4) (Fin 4) ℂ) : embed 2 [1, 0] M 1 3 = M 2 3 ∧ embed 2 [0, 1] M 1 3 = M 1 3 := by
  exact ⟨if_pos (show AgreeOff 2 [1, 0] 1 3 by decide), if_pos (show AgreeOff 2 [0, 1] 1 3 by decide)⟩

/-! ## C09: homomorphism -/

/-- Embedding respects products, the identity, inverses, scalars and determinant one. -/
theorem C09_homomorphism (hnd : qs.Nodup) (hlt : ∀ q ∈ qs, q < n)
    (A B : Matrix (Fin (2 ^ qs.length)) (Fin (2 ^ qs.length)) ℂ) (c : ℂ) :
    embed n qs (A * B) = embed n qs A * embed n qs B ∧ embed n qs 1 = 1 ∧
    embed n qs Aᴴ = (embed n qs A)ᴴ ∧ embed n qs (c • A) = c • embed n qs A ∧
    (A ∈ unitaryGroup _ ℂ → embed n qs A ∈ unitaryGroup _ ℂ) :=
  ⟨embed_mul hnd hlt A B, embed_one hnd hlt, embed_conjTranspose A, embed_smul c A, embed_mem_unitary hnd hlt⟩

/-- The full unitary of the product of two gates on the same qubits is the product of the full unitaries, and
the full unitary of the inverse is the inverse of the full unitary. -/
theorem C09_full_unitary_mul (hne : qs ≠ []) (hnd : qs.Nodup) (hlt : ∀ q ∈ qs, q < n)
    (hu : u.Exact (2 ^ qs.length)) (hv : v.Exact (2 ^ qs.length)) :
    ∃ uv ui fu fv fuv fi, u.leftMultiply 0 v = .ok uv ∧ u.inverse 0 = .ok ui ∧
      EntryVal.fullUnitary 0 ⟨u, qs⟩ (2 ^ n) = .ok fu ∧ EntryVal.fullUnitary 0 ⟨v, qs⟩ (2 ^ n) = .ok fv ∧
      EntryVal.fullUnitary 0 ⟨uv, qs⟩ (2 ^ n) = .ok fuv ∧ EntryVal.fullUnitary 0 ⟨ui, qs⟩ (2 ^ n) = .ok fi ∧
      fuv.matrix.toMatrix (2 ^ n) = fv.matrix.toMatrix (2 ^ n) * fu.matrix.toMatrix (2 ^ n) ∧
      fi.matrix.toMatrix (2 ^ n) = (fu.matrix.toMatrix (2 ^ n))ᴴ := by
  have hm : (v.matrix.matmul u.matrix).toMatrix (2 ^ qs.length) =
      v.matrix.toMatrix _ * u.matrix.toMatrix _ := Arr.toMatrix_matmul hv.cols
  have huv : Unitary.Exact (Unitary.plain (v.matrix.matmul u.matrix)) (2 ^ qs.length) :=
    ⟨hu.pos, hv.rows, hu.cols, by
      show (v.matrix.matmul u.matrix).toMatrix _ ∈ _
      rw [hm]; exact mul_mem hv.2.2.2 hu.2.2.2⟩
  have hui : Unitary.Exact { u with matrix := u.matrix.ct, isInverse := !u.isInverse } (2 ^ qs.length) :=
    ⟨hu.pos, hu.cols, hu.rows, by
      show (u.matrix.ct).toMatrix _ ∈ _
      rw [Arr.toMatrix_ct]; exact Unitary.ct_mem_su hu.2.2.2⟩
  obtain ⟨fu, h1, -, h1'⟩ := EntryVal.fullUnitary_exact (n := n) (e := ⟨u, qs⟩) ⟨hnd, hne, hu.dim⟩ hlt hu
  obtain ⟨fv, h2, -, h2'⟩ := EntryVal.fullUnitary_exact (n := n) (e := ⟨v, qs⟩) ⟨hnd, hne, hv.dim⟩ hlt hv
  obtain ⟨fuv, h3, -, h3'⟩ := EntryVal.fullUnitary_exact (n := n) (e := ⟨_, qs⟩) ⟨hnd, hne, huv.dim⟩ hlt huv
  obtain ⟨fi, h4, -, h4'⟩ := EntryVal.fullUnitary_exact (n := n) (e := ⟨_, qs⟩) ⟨hnd, hne, hui.dim⟩ hlt hui
  refine ⟨_, _, fu, fv, fuv, fi, Unitary.leftMultiply_eq hu hv, Unitary.inverse_eq hu, h1, h2, h3, h4, ?_, ?_⟩
  · rw [h1', h2', h3', ← embed_mul hnd hlt, ← hm]
  · rw [h1', h4', ← embed_conjTranspose, ← Arr.toMatrix_ct]

/-- Full unitaries of entries on disjoint qubit lists commute. -/
theorem C09_disjoint_commute {ps : List ℕ} (hne : qs ≠ []) (hnd : qs.Nodup) (hlt : ∀ q ∈ qs, q < n)
    (hne' : ps ≠ []) (hnd' : ps.Nodup) (hlt' : ∀ q ∈ ps, q < n) (hdisj : ∀ q ∈ qs, q ∉ ps)
    (hu : u.Exact (2 ^ qs.length)) (hv : v.Exact (2 ^ ps.length)) :
    ∃ fu fv, EntryVal.fullUnitary 0 ⟨u, qs⟩ (2 ^ n) = .ok fu ∧ EntryVal.fullUnitary 0 ⟨v, ps⟩ (2 ^ n) = .ok fv ∧
      fu.matrix.toMatrix (2 ^ n) * fv.matrix.toMatrix (2 ^ n) =
        fv.matrix.toMatrix (2 ^ n) * fu.matrix.toMatrix (2 ^ n) := by
  obtain ⟨fu, h1, -, h1'⟩ := EntryVal.fullUnitary_exact (n := n) (e := ⟨u, qs⟩) ⟨hnd, hne, hu.dim⟩ hlt hu
  obtain ⟨fv, h2, -, h2'⟩ := EntryVal.fullUnitary_exact (n := n) (e := ⟨v, ps⟩) ⟨hnd', hne', hv.dim⟩ hlt' hv
  refine ⟨fu, fv, h1, h2, ?_⟩
  rw [h1', h2']
  exact embed_comm_disjoint hdisj _ _ hlt hlt'

/-- Disjoint qubit lists exist: qubits `[2, 0]` and `[1]` of three. -/
example : ∀ q ∈ [2, 0], q ∉ [1] := by decide

/-! ## C10: the permutation matrix -/

/-- `get_permute_matrix` returns a permutation matrix.  Row `c` has its 1 in the column obtained by listing the
qubits `qs` of `c` first and then the remaining qubits in increasing order. -/
theorem C10_permute_matrix (hne : qs ≠ []) (hnd : qs.Nodup) (hlt : ∀ q ∈ qs, q < n)
    (hu : u.getDimension = 2 ^ qs.length) :
    ∃ (P : Arr) (σ : Equiv.Perm (Fin (2 ^ n))), EntryVal.getPermuteMatrix ⟨u, qs⟩ (2 ^ n) = .ok P ∧
      P.Is (fun r c : Fin (2 ^ n) => if σ r = c then (1 : ℂ) else 0) ∧
      (∀ c, (σ c : ℕ) = gather n (qs ++ (List.range n).filter fun q => q ∉ qs) c) ∧
      (∀ c k (hk : k < qs.length), qubit n k (σ c) = qubit n qs[k] c) := by
  have hwf : EntryVal.WF ⟨u, qs⟩ := ⟨hnd, hne, hu⟩
  let f : Fin (2 ^ n) → Fin (2 ^ n) := fun c => ⟨outIdx n qs c, outIdx_lt ..⟩
  have hf : Function.Injective f := fun r c h =>
    Fin.ext (outIdx_inj hnd hlt r.2 c.2 (by simpa [f] using h))
  refine ⟨_, Equiv.ofBijective f (Finite.injective_iff_bijective.mp hf),
    EntryVal.getPermuteMatrix_eq hwf hlt, ⟨rfl, rfl, ?_⟩, fun c => outIdx_eq_gather hnd hlt c, ?_⟩
  · ext r c
    simp only [Arr.toMatrix, EntryVal.permuteArr_val r.2, Equiv.ofBijective_apply, f, Fin.ext_iff]
  · intro c k hk
    have hkn : k < n := lt_of_lt_of_le hk (EntryVal.length_le hnd hlt)
    show qubit n k (outIdx n qs c) = _
    rw [outIdx, qubit_num hkn (fun _ _ => qubit_lt ..), idxOf_order_applied hnd hlt hk]

/-! ## C13: only power-of-two systems -/

/-- For every matrix arithmetic: on a system whose dimension is not a power of two, the full unitary and the
permutation matrix of every entry raise. -/
theorem C13_only_powers_of_two (τ : Arith) (e : EntryVal) (D : ℕ) (hD : ∀ k, D ≠ 2 ^ k) :
    (∃ err, e.fullUnitary τ D = .error err) ∧ (∃ err, e.getPermuteMatrix D = .error err) := by
  constructor
  · rcases h : e.fullUnitary τ D with err | f
    · exact ⟨err, rfl⟩
    · obtain ⟨k, hk⟩ := EntryVal.fullUnitary_pow h; exact absurd hk (hD k)
  · rcases h : e.getPermuteMatrix D with err | f
    · exact ⟨err, rfl⟩
    · obtain ⟨k, hk⟩ := EntryVal.getPermuteMatrix_pow h; exact absurd hk (hD k)

/-- 6 is not a power of two. -/
example : ∀ k, 6 ≠ 2 ^ k := by
  intro k h
  have hk : k < 3 := by
    by_contra hk
    have : 2 ^ 3 ≤ 2 ^ k := Nat.pow_le_pow_right (by norm_num) (not_lt.mp hk)
    omega
  interval_cases k <;> simp at h

end Stoq
