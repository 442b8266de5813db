import Verif.Proofs.Layers
import Verif.Props.Compile

/-!
# C40, C41: layers
-/

namespace Stoq

open World Compiler

/-! ## C40 -/

/-- C40: with non-negative counts the sequence `compile_layered` returns — with whatever budget, so every sequence it
ever holds — is a concatenation of complete layers, at most one for each step, for every matrix arithmetic. -/
theorem C40_whole_layers {τ : Arith} {c : Client} {Cs : List Compiler} (hs : Session τ c Cs) {C : Compiler}
    (hC : C ∈ Cs) {target : Unitary} {counts : List (Primitive × ℤ)} (hc : ∀ pc ∈ counts, 0 ≤ pc.2)
    {threshold : Option ℝ} {m : ℤ} {R : CompilerResult} {w' : World}
    (h : C.compileLayered τ target counts threshold m c.world = (.ok R, w')) :
    ∃ v, ∃ layers : List (List EntryVal), w'.view R.sequence = some v ∧ v.entries = layers.flatten ∧
      (∀ l ∈ layers, IsLayer τ (intLog2 C.dimension) counts l ∧ (l.length : ℤ) = (counts.map Prod.snd).sum) ∧
      (v.entries.length : ℤ) = layers.length * (counts.map Prod.snd).sum ∧
      layers.length ≤ R.costByStep.length := by
  obtain ⟨b, hb, -⟩ := hs.ok.2.alive C hC
  have hp := compileLayered_post (target := target) (counts := counts) (threshold := threshold) (m := m)
    hs.ok.1.wf hb
  rw [h] at hp
  obtain ⟨-, -, -, o', b', h1, h2, h3, -, h4⟩ := hp.ok R rfl
  obtain ⟨layers, h5, h6, h7⟩ := Metropolis.Walk.grow (P := Layered τ (intLog2 C.dimension) counts)
    (fun _ _ hg => hg.mono) (fun _ _ _ _ _ hg h => layeredProposal_layered hc hg h) h4 (j := 0) ⟨[], rfl, by simp, by simp⟩
  obtain ⟨hs1, hs2⟩ := sum_toNat hc
  have hlen : ∀ l ∈ layers, (l.length : ℤ) = (counts.map Prod.snd).sum := by
    intro l hl
    rw [(h6 l hl).length]; omega
  refine ⟨_, layers, view_eq_some.mpr ⟨o', h1, rfl⟩, h5, fun l hl => ⟨h6 l hl, hlen l hl⟩, ?_, by simpa using h7⟩
  simp only [viewOf]
  rw [h5]
  clear h5 h6 h7
  induction layers with
  | nil => simp
  | cons l ls ih =>
    rw [List.flatten_cons, List.length_append]
    push_cast
    rw [ih fun x hx => hlen x (by simp [hx]), hlen l (by simp), List.length_cons]
    push_cast
    ring

/-- C40: the same for all intermediate states: with a budget of `k` instead of `m` the call also succeeds, records the
first `k` costs and holds whole layers. -/
theorem C40_whole_layers_always {τ : Arith} {c : Client} {Cs : List Compiler} (hs : Session τ c Cs) {C : Compiler}
    (hC : C ∈ Cs) {target : Unitary} {counts : List (Primitive × ℤ)} (hc : ∀ pc ∈ counts, 0 ≤ pc.2)
    {threshold : Option ℝ} {k m : ℤ} (hkm : k ≤ m) {R : CompilerResult} {w' : World}
    (h : C.compileLayered τ target counts threshold m c.world = (.ok R, w')) :
    ∃ R0 w0 v, ∃ layers : List (List EntryVal),
      C.compileLayered τ target counts threshold k c.world = (.ok R0, w0) ∧
      R0.costByStep = R.costByStep.take k.toNat ∧ w0.view R0.sequence = some v ∧ v.entries = layers.flatten ∧
      ∀ l ∈ layers, IsLayer τ (intLog2 C.dimension) counts l := by
  have h0 : ∃ w'', C.compileLayered τ target counts threshold k c.world =
      (.ok ⟨R.sequence, R.costByStep.take k.toNat⟩, w'') := by
    unfold compileLayered compileWith at h ⊢
    rw [PyM.bind_eq_ok_iff] at h
    obtain ⟨s, w1, h1, h⟩ := h
    rw [PyM.bind_eq_ok_iff] at h
    obtain ⟨cs, w2, h2, h⟩ := h
    cases h
    obtain ⟨-, w'', h3⟩ := compileLoop_take τ C (makeRandomChangeLayered τ C counts) target threshold hkm s m.toNat h2
    rw [compileLoop_fuel τ C (makeRandomChangeLayered τ C counts) target threshold k s m.toNat k.toNat []
      (by simp; omega) (by simp)] at h3
    refine ⟨w'', ?_⟩
    rw [PyM.bind_of_ok h1, PyM.bind_of_ok h3]
    simp
  obtain ⟨w0, h0⟩ := h0
  obtain ⟨v, layers, h1, h2, h3, -⟩ := C40_whole_layers hs hC hc h0
  exact ⟨_, w0, v, layers, h0, rfl, h1, h2, fun l hl => (h3 l hl).1⟩

/-! ## C41 -/

/-- C41: `create_random_layer` returns references to new entries; they are a rearrangement of groups, one for each
item of the dictionary, of the requested size and consisting of instances of the requested primitive. -/
theorem C41_layer_counts {τ : Arith} {D : ℕ} {counts : List (Primitive × ℤ)} {w w' : World} {rs : List ℕ}
    (h : createRandomLayer τ D counts w = (.ok rs, w')) :
    (∀ r ∈ rs, r < w'.entries.length) ∧ IsLayer τ (intLog2 D) counts (valsOf w'.entries rs) ∧
      rs.length = (counts.map fun pc => pc.2.toNat).sum := by
  have hm := mk_layer (τ := τ) (D := D) (counts := counts) (G := fun _ => True) (fun _ _ _ _ _ _ => trivial) w
  unfold Wp at hm
  rw [h] at hm
  have hres := hm.res
  rcases hf : Metropolis.layer (fun p => createRandomEntryVal τ D [p] none) counts w.rng with ⟨e | vs, r⟩
  · rw [hf] at hres; cases hres
  · rw [hf] at hres
    obtain ⟨rs', h1, h2, h3, -⟩ := hres
    cases h1
    have hl := layer_isLayer hf
    refine ⟨h2, by rw [h3]; exact hl, ?_⟩
    rw [← hl.length, ← h3, valsOf_eq_map h2, List.length_map]

/-- C41: all orders are possible: every rearrangement is the result of shuffling for some random outcomes. -/
theorem C41_every_order {α : Type} (l l' : List α) (hp : l'.Perm l) :
    ∃ nat : ℕ → ℕ, ∀ unif, (Rng.shuffle l ⟨unif, nat, 0, 0⟩).1 = .ok l' := by
  obtain ⟨f, hf⟩ := Rng.shuffle_surj l l' hp
  exact ⟨f, fun unif => hf ⟨unif, f, 0, 0⟩ fun k => by simp⟩

end Stoq
