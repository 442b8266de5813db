import Verif.Spec.Session
import Verif.Proofs.Walk
import Verif.Proofs.Verification
import Verif.Proofs.HamiltonianPost
import Verif.Proofs.Frame

/-! # What holds in every state a session can reach -/

namespace Stoq

open World Compiler

/-- Facts about the compilers of a session. -/
structure CompilersOk (w : World) (Cs : List Compiler) : Prop where
  distinct : (Cs.map Compiler.self).Nodup
  alive : ∀ C ∈ Cs, ∃ b, w.annealing C = some b ∧ b ≤ C.maxBeta ∧ (0 ≤ C.annealingRate → 0 ≤ b)
  dim : ∀ C ∈ Cs, 0 < C.dimension ∧ C.maxBeta = ((2 : ℝ) ^ C.dimension) ^ 2
  prims : ∀ C ∈ Cs, ∀ p ∈ C.primitives, p.getDimension ≤ C.dimension

theorem heat_iterate_nonneg {rate cap b : ℝ} (hr : 0 ≤ rate) (hc : 0 ≤ cap) (hb : 0 ≤ b) (k : ℕ) :
    0 ≤ (Metropolis.heat rate cap)^[k] b := by
  induction k with
  | zero => exact hb
  | succ k ih => rw [Function.iterate_succ_apply']; exact le_min (by linarith) hc

/-- The state after a compilation. -/
theorem CompilePost.session {τ : Arith} {G : EntryVal → Prop} {prop : List EntryVal → PyM Rng (List EntryVal)}
    {C : Compiler} {target : Unitary} {threshold : Option ℝ} {m : ℤ} {b : ℝ} {c : Client} {Cs : List Compiler}
    (hc : c.Ok τ) (hCs : CompilersOk c.world Cs) (hC : C ∈ Cs) {M : PyM World CompilerResult}
    (hb : c.world.annealing C = some b)
    (h : CompilePost τ G prop C target threshold m c.world b (M c.world).1 (M c.world).2) :
    (c.call M (fun _ _ => .handle) (fun _ => []) (fun R => [R.sequence])).2.Ok τ ∧
      CompilersOk (c.call M (fun _ _ => .handle) (fun _ => []) (fun R => [R.sequence])).2.world Cs := by
  have hlen : ∀ r ∈ c.seqs, r < (M c.world).2.seqs.length := by
    intro r hr
    have h1 := hc.seqs r hr
    have h2 := h.others r h1
    rw [List.getElem?_eq_getElem h1] at h2
    exact (List.getElem?_eq_some_iff.mp h2).1
  have hcs : CompilersOk (M c.world).2 Cs := by
    refine ⟨hCs.distinct, fun C' hC' => ?_, hCs.dim, hCs.prims⟩
    obtain ⟨b', h1, h2, h3⟩ := hCs.alive C' hC'
    by_cases he : C'.self = C.self
    · have hCC : C' = C := List.inj_on_of_nodup_map hCs.distinct hC' hC he
      subst hCC
      rw [hb] at h1; cases h1
      obtain ⟨k, hk⟩ := h.beta
      refine ⟨_, hk, Metropolis.heat_iterate_le k h2, fun hr => heat_iterate_nonneg hr ?_ (h3 hr) k⟩
      rw [(hCs.dim C' hC).2]; positivity
    · exact ⟨b', by unfold World.annealing; rw [h.betaOther _ he]; exact h1, h2, h3⟩
  have hent : ∀ r ∈ c.entries, r < (M c.world).2.entries.length := fun r hr =>
    Grow.lt h.grow (hc.entries r hr)
  unfold Client.call
  rcases hM : M c.world with ⟨e | R, w'⟩
  · rw [hM] at h hlen hcs hent
    exact ⟨⟨h.wf, hent, hlen, hc.nodup⟩, hcs⟩
  · rw [hM] at h hlen hcs hent
    obtain ⟨h1, -, -, o', b', h2, -⟩ := h.ok R rfl
    refine ⟨⟨h.wf, by simpa using hent, ?_, ?_⟩, hcs⟩
    · intro r hr
      rcases List.mem_append.mp hr with hr | hr
      · exact hlen r hr
      · obtain rfl := List.mem_singleton.mp hr
        exact (List.getElem?_eq_some_iff.mp h2).1
    · refine List.Nodup.append hc.nodup (by simp) ?_
      intro r hr hr'
      obtain rfl := List.mem_singleton.mp hr'
      have := hc.seqs _ hr
      omega

/-- The state after a call that returns a new sequence and keeps everything else. -/
theorem Safe.session {τ : Arith} {c : Client} {Cs : List Compiler} (hc : c.Ok τ) (hCs : CompilersOk c.world Cs)
    {α : Type} {M : PyM World α} {f : α → ℕ} (h : Safe τ c.world (M c.world).2)
    (hnew : ∀ a, (M c.world).1 = .ok a → c.world.seqs.length ≤ f a ∧ ∃ o, (M c.world).2.seqs[f a]? = some o) :
    (c.call M (fun _ _ => .handle) (fun _ => []) (fun a => [f a])).2.Ok τ ∧
      CompilersOk (c.call M (fun _ _ => .handle) (fun _ => []) (fun a => [f a])).2.world Cs := by
  have hlen : ∀ r ∈ c.seqs, r < (M c.world).2.seqs.length := by
    intro r hr
    have h1 := hc.seqs r hr
    obtain ⟨o', h2, -⟩ := h.others r _ (List.getElem?_eq_getElem h1)
    exact (List.getElem?_eq_some_iff.mp h2).1
  have hcs : CompilersOk (M c.world).2 Cs := by
    refine ⟨hCs.distinct, fun C' hC' => ?_, hCs.dim, hCs.prims⟩
    obtain ⟨b', h1, h2⟩ := hCs.alive C' hC'
    exact ⟨b', getElem?_of_prefix h.betas h1, h2⟩
  have hent : ∀ r ∈ c.entries, r < (M c.world).2.entries.length := fun r hr =>
    Grow.lt h.grow (hc.entries r hr)
  unfold Client.call
  rcases hM : M c.world with ⟨e | a, w'⟩
  · rw [hM] at h hlen hcs hent
    exact ⟨⟨h.wf, hent, hlen, hc.nodup⟩, hcs⟩
  · rw [hM] at h hlen hcs hent hnew
    obtain ⟨h1, o', h2⟩ := hnew a rfl
    refine ⟨⟨h.wf, by simpa using hent, ?_, ?_⟩, hcs⟩
    · intro r hr
      rcases List.mem_append.mp hr with hr | hr
      · exact hlen r hr
      · obtain rfl := List.mem_singleton.mp hr
        exact (List.getElem?_eq_some_iff.mp h2).1
    · refine List.Nodup.append hc.nodup (by simp) ?_
      intro r hr hr'
      obtain rfl := List.mem_singleton.mp hr'
      have := hc.seqs _ hr
      omega

theorem call_world {c : Client} {α : Type} (M : PyM World α) (f : α → ℕ) :
    (c.call M (fun _ _ => .handle) (fun _ => []) (fun a => [f a])).2.world = (M c.world).2 ∧
      c.seqs <+: (c.call M (fun _ _ => .handle) (fun _ => []) (fun a => [f a])).2.seqs ∧
      c.entries <+: (c.call M (fun _ _ => .handle) (fun _ => []) (fun a => [f a])).2.entries := by
  unfold Client.call
  rcases M c.world with ⟨e | a, w'⟩
  · exact ⟨rfl, List.prefix_rfl, List.prefix_rfl⟩
  · exact ⟨rfl, List.prefix_append _ _, List.prefix_append _ _⟩

/-- What the client holds is not changed by a call that keeps everything. -/
theorem Safe.frame {τ : Arith} {c : Client} {Cs : List Compiler} (hc : c.Ok τ) (hCs : CompilersOk c.world Cs)
    {α : Type} {M : PyM World α} {f : α → ℕ} (h : Safe τ c.world (M c.world).2) :
    (∀ i v, c.seq i = some v →
      (c.call M (fun _ _ => .handle) (fun _ => []) (fun a => [f a])).2.seq i = some v) ∧
    (∀ i v, c.entry i = some v →
      (c.call M (fun _ _ => .handle) (fun _ => []) (fun a => [f a])).2.entry i = some v) ∧
    ∀ C ∈ Cs, (c.call M (fun _ _ => .handle) (fun _ => []) (fun a => [f a])).2.world.annealing C =
      c.world.annealing C := by
  obtain ⟨h1, h2, h3⟩ := call_world (c := c) M f
  refine ⟨fun i v hv => ?_, fun i v hv => ?_, fun C hC => ?_⟩
  · obtain ⟨r, hr, hv'⟩ := Option.bind_eq_some_iff.mp hv
    obtain ⟨o, ho, rfl⟩ := view_eq_some.mp hv'
    obtain ⟨o', ho', hsame⟩ := h.others r o ho
    refine Option.bind_eq_some_iff.mpr ⟨r, getElem?_of_prefix h2 hr, view_eq_some.mpr ⟨o', by rw [h1]; exact ho', ?_⟩⟩
    rw [h1, ← viewOf_grow (hc.wf.seq ho) h.grow]
    unfold viewOf
    rw [hsame.dim, hsame.arr, hsame.entries, hsame.prev]
  · obtain ⟨r, hr, hv'⟩ := Option.bind_eq_some_iff.mp hv
    obtain ⟨x, hx, rfl⟩ := Option.map_eq_some_iff.mp hv'
    obtain ⟨x', hx', hxx⟩ := h.grow r x hx
    exact Option.bind_eq_some_iff.mpr ⟨r, getElem?_of_prefix h3 hr, by rw [h1, hx']; simp [hxx]⟩
  · obtain ⟨b, hb, -⟩ := hCs.alive C hC
    rw [h1, hb]
    exact getElem?_of_prefix h.betas hb

theorem Session.ok {τ : Arith} {c : Client} {Cs : List Compiler} (h : Session τ c Cs) :
    c.Ok τ ∧ CompilersOk c.world Cs := by
  induction h with
  | start rng => exact ⟨ok_start τ rng, by simp, by simp, by simp, by simp⟩
  | @op c Cs o _ ih =>
    have hf := step_frame ih.1 o
    refine ⟨hf.ok, ih.2.distinct, fun C hC => ?_, ih.2.dim, ih.2.prims⟩
    unfold World.annealing
    rw [hf.betas]
    exact ih.2.alive C hC
  | @newCompiler c Cs C w D prims arr probs p rate _ hnew ih =>
    obtain ⟨h1, h2, rfl, rfl⟩ := new_compiler_eq hnew
    have hlt : ∀ C ∈ Cs, C.self < c.world.betas.length := by
      intro C hC
      obtain ⟨b, hb, -⟩ := ih.2.alive C hC
      exact (List.getElem?_eq_some_iff.mp hb).1
    refine ⟨⟨⟨ih.1.wf.entries, ih.1.wf.seqs⟩, ih.1.entries, ih.1.seqs, ih.1.nodup⟩, ?_, ?_, ?_, ?_⟩
    · rw [List.map_append]
      refine List.Nodup.append ih.2.distinct (by simp) ?_
      intro r hr hr'
      obtain ⟨C, hC, rfl⟩ := List.mem_map.mp hr
      have := hlt C hC
      have h3 : C.self = c.world.betas.length := List.mem_singleton.mp hr'
      omega
    · intro C hC
      rcases List.mem_append.mp hC with hC | hC
      · obtain ⟨b, hb, h3⟩ := ih.2.alive C hC
        refine ⟨b, ?_, h3⟩
        unfold World.annealing
        simp only
        rw [List.getElem?_append_left (hlt C hC)]
        exact hb
      · obtain rfl := List.mem_singleton.mp hC
        exact ⟨0, by simp [World.annealing], by positivity, fun _ => le_rfl⟩
    · intro C hC
      rcases List.mem_append.mp hC with hC | hC
      · exact ih.2.dim C hC
      · obtain rfl := List.mem_singleton.mp hC
        exact ⟨h1, rfl⟩
    · intro C hC
      rcases List.mem_append.mp hC with hC | hC
      · exact ih.2.prims C hC
      · obtain rfl := List.mem_singleton.mp hC
        exact h2
  | @compile c Cs C target threshold m _ hC ih =>
    obtain ⟨b, hb, -⟩ := ih.2.alive C hC
    by_cases hT : C.Truthy
    · exact (compile_post hT ih.1.wf hb).session ih.1 ih.2 hC hb
    · rcases compile_falsy (τ := τ) (target := target) (threshold := threshold) (m := m) hT c.world with h | h <;>
      · unfold Client.call
        rw [h]
        exact ih
  | @compileLayered c Cs C target counts threshold m _ hC ih =>
    obtain ⟨b, hb, -⟩ := ih.2.alive C hC
    exact (compileLayered_post ih.1.wf hb).session ih.1 ih.2 hC hb
  | @rav c Cs D prims arr L threshold p probs m _ ih =>
    obtain ⟨h1, h2⟩ := rav_safe (D := D) (prims := prims) (arr := arr) (L := L) (threshold := threshold) (p := p)
      (probs := probs) (m := m) ih.1.wf
    exact h1.session ih.1 ih.2 h2
  | @layeredRav c Cs D counts L threshold p m _ ih =>
    obtain ⟨h1, h2⟩ := layeredRav_safe (D := D) (counts := counts) (L := L) (threshold := threshold) (p := p)
      (m := m) ih.1.wf
    exact h1.session ih.1 ih.2 h2
  | @ideal c Cs H t N _ ih =>
    have hp := ideal_post H t N ih.1.wf
    rw [Wp] at hp
    obtain ⟨h1, h2, h3⟩ := hp
    refine h1.session (f := fun s => s) ih.1 ih.2 fun s hs => ?_
    by_cases hN : N = 0
    · rw [(h2 hN).1] at hs; cases hs
    · rcases hu : H.getTimeEvolutionOperator τ (t / N) with e | u
      · rw [((h3 hN).1 e hu).1] at hs; cases hs
      · exact ((h3 hN).2 u hu).new hs
  | @trotter c Cs H t N randomize _ ih =>
    have hp := trotter_post H t N randomize ih.1.wf
    rw [Wp] at hp
    obtain ⟨h1, h2, h3⟩ := hp
    refine h1.session (f := fun s => s) ih.1 ih.2 fun s hs => ?_
    by_cases hN : N = 0
    · rw [(h2 hN).1] at hs; cases hs
    · exact (h3 hN).new hs
  | @qdrift c Cs H t N _ ih =>
    have hp := qdrift_post H t N ih.1.wf
    rw [Wp] at hp
    exact hp.safe.session (f := fun s => s) ih.1 ih.2 fun s hs => hp.new hs
  | @stoq c Cs H t m threshold b _ ih =>
    obtain ⟨h1, h2⟩ := stoq_safe (H := H) (t := t) (m := m) (threshold := threshold) (b := b) ih.1.wf
    exact h1.session ih.1 ih.2 h2
  | @hamiltonianRav c Cs H t m threshold b fuel _ ih =>
    obtain ⟨h1, h2⟩ := hrav_safe (H := H) (time := t) (m := m) (threshold := threshold) (b := b) (fuel := fuel) ih.1.wf
    exact h1.session ih.1 ih.2 h2

end Stoq
