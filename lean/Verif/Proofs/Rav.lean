import Verif.Proofs.Layers

/-! # Facts about the specification of verification sequences -/

namespace Stoq

open World Compiler Matrix

namespace Rav

variable {fresh : PyM Rng (List EntryVal)}

theorem blocks_ok {k : ℕ} {r r' : Rng} {vs : List EntryVal} (h : blocks fresh k r = (.ok vs, r')) :
    ∃ bs : List (List EntryVal), vs = bs.flatten ∧ bs.length = k ∧ ∀ b ∈ bs, ∃ r1 r2, fresh r1 = (.ok b, r2) := by
  induction k generalizing r vs with
  | zero => cases h; exact ⟨[], rfl, rfl, by simp⟩
  | succ k ih =>
    rw [blocks, PyM.bind_eq_ok_iff] at h
    obtain ⟨b, r1, h1, h⟩ := h
    rw [PyM.bind_eq_ok_iff] at h
    obtain ⟨rest, r2, h2, h⟩ := h
    cases h
    obtain ⟨bs, rfl, h3, h4⟩ := ih h2
    refine ⟨b :: bs, rfl, by simp [h3], fun b' hb' => ?_⟩
    rcases List.mem_cons.mp hb' with rfl | hb'
    · exact ⟨_, _, h1⟩
    · exact h4 b' hb'

theorem blocks_valid (hf : ∀ r, ∃ vs r', fresh r = (.ok vs, r')) (k : ℕ) (r : Rng) :
    ∃ vs r', blocks fresh k r = (.ok vs, r') := by
  induction k generalizing r with
  | zero => exact ⟨[], r, rfl⟩
  | succ k ih =>
    obtain ⟨b, r1, h1⟩ := hf r
    obtain ⟨vs, r2, h2⟩ := ih r1
    exact ⟨b ++ vs, r2, by rw [blocks, PyM.bind_of_ok h1, PyM.bind_of_ok h2]; rfl⟩

theorem blocks_one {gen : PyM Rng EntryVal} {k : ℕ} {r r' : Rng} {vs : List EntryVal}
    (h : blocks (Metropolis.one gen) k r = (.ok vs, r')) :
    vs.length = k ∧ ∀ v ∈ vs, ∃ r1 r2, gen r1 = (.ok v, r2) := by
  obtain ⟨bs, rfl, h1, h2⟩ := blocks_ok h
  have h3 : ∀ b ∈ bs, ∃ v r1 r2, gen r1 = (.ok v, r2) ∧ b = [v] := by
    intro b hb
    obtain ⟨r1, r2, h⟩ := h2 b hb
    obtain ⟨v, h', rfl⟩ := Metropolis.one_ok_iff.mp h
    exact ⟨v, r1, r2, h', rfl⟩
  constructor
  · rw [List.length_flatten, ← h1]
    clear h h1 h2
    induction bs with
    | nil => rfl
    | cons b bs ih =>
      obtain ⟨v, r1, r2, -, rfl⟩ := h3 b (by simp)
      rw [List.map_cons, List.sum_cons, ih fun b' hb' => h3 b' (by simp [hb'])]
      simp [add_comm]
  · intro v hv
    obtain ⟨b, hb, hv⟩ := List.mem_flatten.mp hv
    obtain ⟨v', r1, r2, h, rfl⟩ := h3 b hb
    obtain rfl := List.mem_singleton.mp hv
    exact ⟨r1, r2, h⟩

/-- The distance between the identity and the whole circuit is the distance between the inverse of the first part and
the second part. -/
theorem overlap_whole {n : ℕ} (pre g : List EntryVal) :
    overlap 1 (circuit n (pre ++ g)) = overlap (circuit n pre)ᴴ (circuit n g) := by
  unfold overlap
  rw [circuit_append, conjTranspose_one, one_mul, conjTranspose_conjTranspose, Matrix.trace_mul_comm]

theorem plan_ok {n : ℕ} {random : PyM Rng (List EntryVal)} {prop : List EntryVal → PyM Rng (List EntryVal)}
    {rate cap : ℝ} {threshold : Option ℝ} {skip : Prop} {m : ℤ} {r r' : Rng}
    {pre : List EntryVal} {walk : List Metropolis.State}
    (h : plan n random prop rate cap threshold skip m r = (.ok (pre, walk), r')) :
    ∃ r1, random r = (.ok pre, r1) ∧
      (skip ∧ walk = [] ∧ r' = r1 ∨
        ¬ skip ∧
          Metropolis.run n (circuit n pre)ᴴ threshold rate cap prop m.toNat ⟨[], 0⟩ r1 = (.ok walk, r')) := by
  unfold plan at h
  rw [PyM.bind_eq_ok_iff] at h
  obtain ⟨pre', r1, h1, h⟩ := h
  split_ifs at h with hs
  · cases h
    exact ⟨_, h1, .inl ⟨hs, rfl, rfl⟩⟩
  · rw [PyM.bind_eq_ok_iff] at h
    obtain ⟨w', r2, h2, h⟩ := h
    cases h
    exact ⟨r1, h1, .inr ⟨hs, h2⟩⟩

theorem plan_valid {n : ℕ} {random : PyM Rng (List EntryVal)} {prop : List EntryVal → PyM Rng (List EntryVal)}
    {rate cap : ℝ} {threshold : Option ℝ} {skip : Prop} {m : ℤ} (hp : ∀ g r, ∃ new r', prop g r = (.ok new, r'))
    {r r1 : Rng} {pre : List EntryVal} (h1 : random r = (.ok pre, r1)) :
    ∃ walk r', plan n random prop rate cap threshold skip m r = (.ok (pre, walk), r') := by
  unfold plan
  rw [PyM.bind_of_ok h1]
  split_ifs with hs
  · exact ⟨[], r1, rfl⟩
  · obtain ⟨walk, r2, h2⟩ := Metropolis.run_ok (n := n) (T := (circuit n pre)ᴴ) (threshold := threshold)
      (rate := rate) (cap := cap) (prop := prop) (P := fun _ => True) (k := m.toNat) (st := ⟨[], 0⟩)
      (fun g r _ => by obtain ⟨new, r', h⟩ := hp g r; exact ⟨new, r', h, trivial⟩) r1 trivial
    exact ⟨walk, r2, by rw [PyM.bind_of_ok h2]; rfl⟩

end Rav

namespace Metropolis

/-- A walk that ends before the budget is used up ends because the goal is reached. -/
theorem run_stop {n : ℕ} {T : Matrix (Fin (2 ^ n)) (Fin (2 ^ n)) ℂ} {threshold : Option ℝ} {rate cap : ℝ}
    {prop : List EntryVal → PyM Rng (List EntryVal)} {k : ℕ} {st : State} {r r' : Rng} {tr : List State}
    (h : run n T threshold rate cap prop k st r = (.ok tr, r')) (hk : tr.length < k) :
    GoodEnough threshold (cost n T (tr.getLast?.getD st).gates) := by
  induction k generalizing st r tr with
  | zero => omega
  | succ k ih =>
    rcases run_succ_ok h with ⟨hg, rfl, -⟩ | ⟨st', r1, rest, -, h1, h2, rfl⟩
    · exact hg
    · rw [getLast?_cons_getD]
      exact ih h2 (by simpa using hk)

end Metropolis

theorem layer_valid {n D : ℕ} (hD : D = 2 ^ n) {counts : List (Primitive × ℤ)}
    (hprims : ∀ pc ∈ counts, pc.1.Valid n) (hus : ∀ pc ∈ counts, 0 < pc.2 → pc.1.allowedApplyTo ≠ some [])
    (r : Rng) :
    ∃ vs r', Metropolis.layer (fun p => createRandomEntryVal 0 D [p] none) counts r = (.ok vs, r') := by
  obtain ⟨vs, r1, h1⟩ := Metropolis.block_valid (gen := fun p => createRandomEntryVal 0 D [p] none)
    (counts := counts) (fun pc hpc hpos r => by
      have hu : usable pc.1 = true := by
        have := hus pc hpc hpos
        unfold usable
        rcases h : pc.1.allowedApplyTo with _ | _ | ⟨x, l⟩
        · rfl
        · exact absurd h this
        · simp
      obtain ⟨v, r', h, -⟩ := createRandomEntryVal_valid (n := n) (prims := [pc.1]) (probs := none)
        (show 0 < ([pc.1].filter usable).length by simp [hu]) (by simpa using hprims pc hpc) r
      exact ⟨v, r', by rw [hD]; exact h⟩) r
  obtain ⟨l, r2, h2, -⟩ := Rng.shuffle_perm vs r1
  exact ⟨l, r2, by unfold Metropolis.layer; rw [PyM.bind_of_ok h1]; exact h2⟩

theorem valid_dimension {n : ℕ} {p : Primitive} (h : p.Valid n) : p.getDimension ≤ 2 ^ n := by
  obtain ⟨k, -, hk, hu, -⟩ := h
  unfold Primitive.getDimension
  rcases hp : p.unitary with u | pu
  · rw [hp] at hu
    simp only at hu ⊢
    rw [hu.dim]
    exact Nat.pow_le_pow_right (by norm_num) hk
  · rw [hp] at hu
    simp only at hu ⊢
    rw [hu.1]
    exact Nat.pow_le_pow_right (by norm_num) hk

theorem layered_length {τ : Arith} {m : ℕ} {counts : List (Primitive × ℤ)} (hc : ∀ pc ∈ counts, 0 ≤ pc.2)
    {layers : List (List EntryVal)} (h : ∀ l ∈ layers, IsLayer τ m counts l) :
    (layers.flatten.length : ℤ) = layers.length * (counts.map Prod.snd).sum := by
  obtain ⟨hs1, hs2⟩ := sum_toNat hc
  induction layers with
  | nil => simp
  | cons l ls ih =>
    rw [List.flatten_cons, List.length_append]
    rw [Nat.cast_add, ih fun x hx => h x (by simp [hx]), (h l (by simp)).length, List.length_cons, ← hs1,
      Int.toNat_of_nonneg hs2]
    push_cast
    ring

end Stoq
