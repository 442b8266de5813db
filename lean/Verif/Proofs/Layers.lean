import Verif.Proofs.Session

/-! # Whole layers -/

namespace Stoq

open World Compiler

theorem layer_isLayer {τ : Arith} {D : ℕ} {counts : List (Primitive × ℤ)} {r r' : Rng} {vs : List EntryVal}
    (h : Metropolis.layer (fun p => createRandomEntryVal τ D [p] none) counts r = (.ok vs, r')) :
    IsLayer τ (intLog2 D) counts vs := by
  obtain ⟨groups, h1, h2⟩ := Metropolis.layer_ok h
  refine ⟨groups, h1, h2.imp fun pc g hg => ⟨hg.1, fun v hv => ?_⟩⟩
  obtain ⟨r1, r2, h3⟩ := hg.2 v hv
  obtain ⟨-, p, hp, -, hf⟩ := createRandomEntryVal_ok h3
  obtain rfl := List.mem_singleton.mp hp
  exact hf

theorem IsLayer.perm {τ : Arith} {m : ℕ} {counts : List (Primitive × ℤ)} {l l' : List EntryVal}
    (h : IsLayer τ m counts l) (hp : l'.Perm l) : IsLayer τ m counts l' := by
  obtain ⟨groups, h1, h2⟩ := h
  exact ⟨groups, hp.trans h1, h2⟩

theorem IsLayer.length {τ : Arith} {m : ℕ} {counts : List (Primitive × ℤ)} {l : List EntryVal}
    (h : IsLayer τ m counts l) : l.length = (counts.map fun pc => pc.2.toNat).sum := by
  obtain ⟨groups, h1, h2⟩ := h
  rw [h1.length_eq, List.length_flatten]
  clear h1
  induction h2 with
  | nil => rfl
  | cons h _ ih => simp [h.1, ih]

theorem sum_toNat {counts : List (Primitive × ℤ)} (h : ∀ pc ∈ counts, 0 ≤ pc.2) :
    ((counts.map Prod.snd).sum : ℤ).toNat = (counts.map fun pc => pc.2.toNat).sum ∧
      0 ≤ (counts.map Prod.snd).sum := by
  induction counts with
  | nil => simp
  | cons pc rest ih =>
    obtain ⟨h1, h2⟩ := ih fun x hx => h x (by simp [hx])
    have h3 := h pc (by simp)
    simp only [List.map_cons, List.sum_cons]
    rw [← h1]
    omega

/-- A list of gates that consists of whole layers, at most `j`. -/
def Layered (τ : Arith) (m : ℕ) (counts : List (Primitive × ℤ)) (j : ℕ) (g : List EntryVal) : Prop :=
  ∃ layers : List (List EntryVal), g = layers.flatten ∧ (∀ l ∈ layers, IsLayer τ m counts l) ∧ layers.length ≤ j

theorem Layered.mono {τ : Arith} {m : ℕ} {counts : List (Primitive × ℤ)} {j : ℕ} {g : List EntryVal}
    (h : Layered τ m counts j g) : Layered τ m counts (j + 1) g := by
  obtain ⟨layers, h1, h2, h3⟩ := h
  exact ⟨layers, h1, h2, by omega⟩

theorem Layered.drop {τ : Arith} {m : ℕ} {counts : List (Primitive × ℤ)} {j : ℕ} {g : List EntryVal}
    (h : Layered τ m counts j g) : Layered τ m counts j (g.drop (counts.map fun pc => pc.2.toNat).sum) := by
  obtain ⟨layers, rfl, hl, hj⟩ := h
  cases layers with
  | nil => exact ⟨[], by simp, by simp, by simp⟩
  | cons l ls =>
    refine ⟨ls, ?_, fun x hx => hl x (by simp [hx]), by simp only [List.length_cons] at hj; omega⟩
    rw [List.flatten_cons, ← (hl l (by simp)).length, List.drop_left]

theorem Layered.take {τ : Arith} {m : ℕ} {counts : List (Primitive × ℤ)} {j : ℕ} {g : List EntryVal}
    (h : Layered τ m counts j g) :
    Layered τ m counts j (g.take (g.length - (counts.map fun pc => pc.2.toNat).sum)) := by
  obtain ⟨layers, rfl, hl, hj⟩ := h
  rcases List.eq_nil_or_concat layers with rfl | ⟨ls, l, rfl⟩
  · exact ⟨[], by simp, by simp, by simp⟩
  · refine ⟨ls, ?_, fun x hx => hl x (by simp [hx]), by simp at hj; omega⟩
    rw [List.concat_eq_append, List.flatten_append, List.flatten_singleton, List.length_append,
      ← (hl l (by simp)).length, Nat.add_sub_cancel, List.take_left]

theorem layeredProposal_layered {τ : Arith} {C : Compiler} {counts : List (Primitive × ℤ)}
    (hc : ∀ pc ∈ counts, 0 ≤ pc.2) {j : ℕ} {g new : List EntryVal} {r r' : Rng}
    (hg : Layered τ (intLog2 C.dimension) counts j g) (h : C.layeredProposal τ counts g r = (.ok new, r')) :
    Layered τ (intLog2 C.dimension) counts (j + 1) new := by
  unfold Compiler.layeredProposal at h
  rw [(sum_toNat hc).1] at h
  rcases (Metropolis.propose_cases h).2 with ⟨-, vs, h1, h2⟩ | ⟨-, -, rfl | rfl⟩
  · have hl := layer_isLayer h1
    obtain ⟨layers, rfl, hls, hj⟩ := hg
    rcases h2 with rfl | rfl
    · exact ⟨vs.reverse :: layers, by simp, by simpa using ⟨hl.perm vs.reverse_perm, hls⟩, by simpa using hj⟩
    · refine ⟨layers ++ [vs], by simp, ?_, by simpa using hj⟩
      intro l hl'
      rcases List.mem_append.mp hl' with hl' | hl'
      · exact hls l hl'
      · obtain rfl := List.mem_singleton.mp hl'
        exact hl
  · exact hg.drop.mono
  · exact hg.take.mono

end Stoq
