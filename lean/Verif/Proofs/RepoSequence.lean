import Verif.Proofs.RepoParam
import Verif.Proofs.DriftHistory

/-! # The tests of sequences: what each call does -/

namespace Stoq

open Matrix UnitaryDefinitions Tests

open scoped Matrix.Norms.L2Operator

namespace Tests

/-- From every state in `P` the program ends normally, with a result in `F` and a state in `Q`. -/
def Does {α : Type} (P : Client → Prop) (m : PyM Client α) (F : α → Prop) (Q : Client → Prop) : Prop :=
  ∀ c, P c → ∃ a c', m c = (.ok a, c') ∧ F a ∧ Q c'

section

variable {α β : Type} {P Q R : Client → Prop} {F : α → Prop} {G : β → Prop}

theorem Does.bind {m : PyM Client α} {g : α → PyM Client β} (h : Does P m F Q) (h' : ∀ a, F a → Does Q (g a) G R) :
    Does P (m >>= g) G R := by
  intro c hc
  obtain ⟨a, c1, e1, ha, hq⟩ := h c hc
  obtain ⟨b, c2, e2, hb, hr⟩ := h' a ha c1 hq
  exact ⟨b, c2, by rw [PyM.bind_of_ok e1, e2], hb, hr⟩

theorem Does.pure {a : α} (h : F a) : Does P (pure a) F P := fun c hc => ⟨a, c, rfl, h, hc⟩

theorem Does.lift {x : Except PyErr α} {a : α} (hx : x = .ok a) (h : F a) : Does P (PyM.lift x) F P :=
  fun c hc => ⟨a, c, by rw [PyM.lift_apply, hx], h, hc⟩

theorem Does.assert {p : Prop} (h : p) : Does P (PyM.assert p) (fun _ => True) P :=
  fun c hc => ⟨(), c, PyM.assert_of h c, trivial, hc⟩

theorem Does.mono {m : PyM Client α} {F' : α → Prop} {P' Q' : Client → Prop} (h : Does P m F Q) (hP : ∀ c, P' c → P c)
    (hF : ∀ a, F a → F' a) (hQ : ∀ c, Q c → Q' c) : Does P' m F' Q' := fun c hc => by
  obtain ⟨a, c', e, ha, hq⟩ := h c (hP c hc)
  exact ⟨a, c', e, hF a ha, hQ c' hq⟩

/-- A state of a client known before the call may be used. -/
theorem Does.get {g : Client → PyM Client β} (h : ∀ c, P c → Does (fun c' => c' = c) (g c) G R) :
    Does P (PyM.get >>= g) G R := fun c hc => h c hc c rfl

end

variable {n k : ℕ} {τ : Arith} {ε : ℝ} {p p' : Plain}

/-- The client holds the plain entries and sequences, with products of at most `k` multiplications. -/
def At (n : ℕ) (τ : Arith) (ε : ℝ) (k : ℕ) (p : Plain) (c : Client) : Prop := RelNear n τ 1.25e-12 ε k c p

theorem perform_does {α : Type} {op op' : Op} {f : Client.Obs → Option α} {F : α → Prop} {y : Plain.Obs} {k' : ℕ}
    (ha : op.Approximates n ε op') (hinv : op.inversions = 0) (hk : op.count k = k')
    (hb : Budget n τ 1.25e-12 ε k') (hs : p.step op' = (.ok y, p'))
    (hf : ∀ obs, NearObs ε (driftErr n 1.25e-12 ε k') obs y → ∃ a, f obs = some a ∧ F a) :
    Does (At n τ ε k p) (perform τ op f) F (At n τ ε k' p') := by
  intro c hc
  subst hk
  obtain ⟨h1, h2⟩ := step_near0 hc ha hinv hb
  rw [hs] at h1 h2
  rcases hx : c.step τ op with ⟨_ | obs, c'⟩
  · rw [hx] at h1; exact absurd h1 (by simp [NearResult])
  · rw [hx] at h1 h2
    obtain ⟨a, hfa, hF⟩ := hf obs h1
    refine ⟨a, c', ?_, hF, h2⟩
    unfold perform
    rw [hx]
    simp only [hfa]

theorem call_does {op op' : Op} {y : Plain.Obs} {k' : ℕ} (ha : op.Approximates n ε op') (hinv : op.inversions = 0)
    (hk : op.count k = k') (hb : Budget n τ 1.25e-12 ε k') (hs : p.step op' = (.ok y, p')) :
    Does (At n τ ε k p) (call τ op) (fun _ => True) (At n τ ε k' p') :=
  perform_does ha hinv hk hb hs fun _ _ => ⟨(), rfl, trivial⟩

/-- A call that raises an exception and leaves the plain state as it is. -/
theorem raises_does {α : Type} {op op' : Op} {f : Client.Obs → Option α} {e : PyErr} {k' : ℕ} (ha : op.Approximates n ε op')
    (hinv : op.inversions = 0) (hk : op.count k = k') (hb : Budget n τ 1.25e-12 ε k') (hs : p.step op' = (.error e, p'))
    (he : isException e = true) :
    Does (At n τ ε k p) (raisesM (perform τ op f)) (fun _ => True) (At n τ ε k' p') := by
  intro c hc
  subst hk
  obtain ⟨h1, h2⟩ := step_near0 hc ha hinv hb
  rw [hs] at h1 h2
  rcases hx : c.step τ op with ⟨e' | obs, c'⟩
  · rw [hx] at h1 h2
    cases (h1 : e' = e)
    have hp : perform τ op f c = (.error e, c') := by unfold perform; rw [hx]
    exact ⟨(), c', by unfold raisesM; rw [hp]; simp [raises, he], trivial, h2⟩
  · rw [hx] at h1; exact absurd h1 (by simp [NearResult])

theorem newEntry_does {u v : Unitary} {r : Except PyErr Unitary} {qs : List ℤ} {d : ℕ} {e : EntryVal} (hr : r = .ok u)
    (hv : v.Exact d) (hu : u.Near (v.matrix.toMatrix d) ε) (he : EntryVal.new v qs = .ok e) (hb : Budget n τ 1.25e-12 ε k) :
    Does (At n τ ε k p) (newEntry τ r qs) (fun i => i = p.entries.length)
      (At n τ ε k { p with entries := p.entries ++ [e] }) := by
  unfold newEntry
  refine Does.bind (Does.lift (F := fun x => x = u) hr rfl) ?_
  rintro _ rfl
  refine Does.get fun c hc => ?_
  refine Does.bind (F := fun _ => True) (Q := At n τ ε k { p with entries := p.entries ++ [e] })
    (Does.mono (call_does (op' := .newEntry v qs) (p := p) (k := k) (y := .handle) ⟨rfl, d, hv, hu⟩ rfl rfl hb
      (by simp only [Plain.step, he]))
      (by rintro _ rfl; exact hc) (fun _ h => h) (fun _ h => h)) fun _ _ => Does.pure ?_
  exact List.Forall₂.length_eq hc.ents

theorem newSeq_does {D : ℕ} {arr : Bool} {es : List ℕ} {vs : List EntryVal} {m k' : ℕ} (hm : m ≤ n) (hD : D = 2 ^ m)
    (hvs : getAll p.entries es = some vs) (hf : ∀ v ∈ vs, Plain.fits D v) (hk : k + es.length = k')
    (hb : Budget n τ 1.25e-12 ε k') :
    Does (At n τ ε k p) (newSeq τ D arr es) (fun i => i = p.seqs.length)
      (At n τ ε k' { p with seqs := p.seqs ++ [⟨D, arr, vs, none⟩] }) := by
  unfold newSeq
  refine Does.get fun c hc => ?_
  refine Does.bind (F := fun _ => True)
    (Does.mono (call_does (op' := .newSeq D arr es) (p := p) (k := k) (y := .handle) ⟨rfl, rfl, rfl, m, hm, hD⟩ rfl hk hb
      (by simp only [Plain.step, hvs, Plain.with_]; rw [if_pos hf]))
      (by rintro _ rfl; exact hc) (fun _ h => h) (fun _ h => h)) fun _ _ => Does.pure ?_
  exact List.Forall₂.length_eq hc.seqs

theorem appendFirst_does {s e : ℕ} {v : SeqView} {g : EntryVal} (hs : p.seqs[s]? = some v) (he : p.entries[e]? = some g)
    (hf : Plain.fits v.dimension g) (ha : v.isArray = false) (hb : Budget n τ 1.25e-12 ε (k + 1)) :
    Does (At n τ ε k p) (call τ (.appendFirst s e true)) (fun _ => True)
      (At n τ ε (k + 1) { p with seqs := p.seqs.set s { v with entries := g :: v.entries, undo := some v.entries } }) :=
  call_does (y := .unit) rfl rfl rfl hb (by simp [Plain.step, hs, he, Plain.with_, hf, Plain.change, ha])

theorem appendLast_does {s e : ℕ} {v : SeqView} {g : EntryVal} (hs : p.seqs[s]? = some v) (he : p.entries[e]? = some g)
    (hf : Plain.fits v.dimension g) (ha : v.isArray = false) (hb : Budget n τ 1.25e-12 ε (k + 1)) :
    Does (At n τ ε k p) (call τ (.appendLast s e true)) (fun _ => True)
      (At n τ ε (k + 1) { p with seqs := p.seqs.set s { v with entries := v.entries ++ [g], undo := some v.entries } }) :=
  call_does (y := .unit) rfl rfl rfl hb (by simp [Plain.step, hs, he, Plain.with_, hf, Plain.change, ha])

theorem removeFirst_does {s : ℕ} {v : SeqView} (hs : p.seqs[s]? = some v) (hne : v.entries ≠ []) (ha : v.isArray = false)
    (hb : Budget n τ 1.25e-12 ε (k + 1)) :
    Does (At n τ ε k p) (call τ (.removeFirst s true)) (fun _ => True)
      (At n τ ε (k + 1) { p with seqs := p.seqs.set s { v with entries := v.entries.tail, undo := some v.entries } }) :=
  call_does (y := .unit) rfl rfl rfl hb (by simp [Plain.step, hs, Plain.with_, hne, Plain.change, ha])

theorem removeLast_does {s : ℕ} {v : SeqView} (hs : p.seqs[s]? = some v) (hne : v.entries ≠ []) (ha : v.isArray = false)
    (hb : Budget n τ 1.25e-12 ε (k + 1)) :
    Does (At n τ ε k p) (call τ (.removeLast s true)) (fun _ => True)
      (At n τ ε (k + 1) { p with seqs := p.seqs.set s { v with entries := v.entries.dropLast, undo := some v.entries } }) :=
  call_does (y := .unit) rfl rfl rfl hb (by simp [Plain.step, hs, Plain.with_, hne, Plain.change, ha])

theorem undo_does {s : ℕ} {v : SeqView} {old : List EntryVal} (hs : p.seqs[s]? = some v) (hu : v.undo = some old)
    (hb : Budget n τ 1.25e-12 ε k) :
    Does (At n τ ε k p) (call τ (.undo s)) (fun _ => True)
      (At n τ ε k { p with seqs := p.seqs.set s { v with entries := old, undo := none } }) :=
  call_does (y := .unit) rfl rfl rfl hb (by simp [Plain.step, hs, Plain.with_, hu])

theorem undo_raises {s : ℕ} {v : SeqView} (hs : p.seqs[s]? = some v) (hu : v.undo = none) (hb : Budget n τ 1.25e-12 ε k) :
    Does (At n τ ε k p) (raisesM (call τ (.undo s))) (fun _ => True) (At n τ ε k p) :=
  raises_does (e := .assertion) rfl rfl rfl hb (by simp [Plain.step, hs, Plain.with_, hu]) rfl

theorem length_does {s : ℕ} {v : SeqView} (hs : p.seqs[s]? = some v) (hb : Budget n τ 1.25e-12 ε k) :
    Does (At n τ ε k p) (length τ s) (fun i => i = v.entries.length) (At n τ ε k p) := by
  refine perform_does (op' := .getLength s) (y := .length v.entries.length) rfl rfl rfl hb
    (by simp [Plain.step, hs, Plain.with_]) fun obs h => ?_
  cases obs <;> simp only [NearObs] at h
  exact ⟨_, rfl, h⟩

theorem assertLength_does {s l : ℕ} {v : SeqView} (hs : p.seqs[s]? = some v) (hl : v.entries.length = l)
    (hb : Budget n τ 1.25e-12 ε k) : Does (At n τ ε k p) (assertLength τ s l) (fun _ => True) (At n τ ε k p) := by
  unfold assertLength
  refine Does.bind (length_does hs hb) ?_
  rintro _ rfl
  exact Does.assert hl

theorem product_does {s m : ℕ} {v : SeqView} (hs : p.seqs[s]? = some v) (hd : v.dimension = 2 ^ m)
    (hb : Budget n τ 1.25e-12 ε k) :
    Does (At n τ ε k p) (product τ s) (fun u => u.Near (circuit m v.entries) (driftErr n 1.25e-12 ε k)) (At n τ ε k p) := by
  refine perform_does (op' := .product s) (y := .op m (circuit m v.entries)) rfl rfl rfl hb
    (by
      have hl : Nat.log 2 v.dimension = m := by rw [hd, log2_pow]
      simp only [Plain.step, hs, Plain.with_]
      rw [hl]) fun obs h => ?_
  cases obs <;> simp only [NearObs] at h
  exact ⟨_, rfl, h⟩

theorem fullUnitary_does {e m D : ℕ} {g : EntryVal} (he : p.entries[e]? = some g) (hm : m ≤ n) (hD : D = 2 ^ m)
    (hf : Plain.fits (2 ^ m) g) (hb : Budget n τ 1.25e-12 ε (k + 1)) :
    Does (At n τ ε k p) (fullUnitary τ e D) (fun u => u.Near (g.op m) (driftErr n 1.25e-12 ε (k + 1)))
      (At n τ ε (k + 1) p) := by
  subst hD
  refine perform_does (op' := .fullUnitary e (2 ^ m)) (y := .op m (g.op m)) ⟨rfl, m, hm, rfl⟩ rfl rfl hb
    (by
      have hl : Nat.log 2 (2 ^ m) = m := log2_pow m
      simp only [Plain.step, he, Plain.with_]
      rw [if_pos hf, hl]) fun obs h => ?_
  cases obs <;> simp only [NearObs] at h
  exact ⟨_, rfl, h⟩

theorem combine_does {ss : List ℕ} {v : SeqView} {vs : List SeqView} {k' : ℕ} (hs : getAll p.seqs ss = some (v :: vs))
    (hd : ∀ v' ∈ v :: vs, v'.dimension = v.dimension) (hk : k + ss.length * (k + 1) = k') (hb : Budget n τ 1.25e-12 ε k') :
    Does (At n τ ε k p) (combine τ ss) (fun i => i = p.seqs.length)
      (At n τ ε k' { p with seqs := p.seqs ++ [⟨v.dimension, false, ((v :: vs).map SeqView.entries).flatten, none⟩] }) := by
  unfold combine
  refine Does.get fun c hc => ?_
  refine Does.bind (F := fun _ => True)
    (Does.mono (call_does (op' := .combine ss) (p := p) (k := k) (y := .handle) rfl rfl hk hb
      (by simp only [Plain.step, hs, Plain.with_]; rw [if_pos hd]))
      (by rintro _ rfl; exact hc) (fun _ h => h) (fun _ h => h)) fun _ _ => Does.pure ?_
  exact List.Forall₂.length_eq hc.seqs

/-! ## From products to objects that store a matrix -/

theorem rep_of_near {d l : ℕ} {u : Unitary} {V W : Matrix (Fin d) (Fin d) ℂ} {x : ℝ} (h : u.Near V x) (hx : x ≤ l * 1e-10)
    (hd : 0 < d) (hd16 : d ≤ 16) (hp : SamePhase V W) (hW : W ∈ unitaryGroup (Fin d) ℂ) : Rep u W l := by
  obtain ⟨c, hc, rfl⟩ := hp
  exact ⟨hd, hd16, (h.mono hx).of_smul hc, hW⟩

theorem assertProduct_does {s m l l' : ℕ} {v : SeqView} {r : Except PyErr Unitary} {u : Unitary}
    {V W : Matrix (Fin (2 ^ m)) (Fin (2 ^ m)) ℂ} (hτ : Fine τ) (hs : p.seqs[s]? = some v) (hd : v.dimension = 2 ^ m)
    (hm : 2 ^ m ≤ 16) (hb : Budget n τ 1.25e-12 ε k) (hx : driftErr n 1.25e-12 ε k ≤ l * 1e-10) (hl : l ≤ 40)
    (hV : SamePhase (circuit m v.entries) V) (hr : r = .ok u) (hu : Rep u W l') (hl' : l' ≤ 40) (hVW : SamePhase V W) :
    Does (At n τ ε k p) (assertProduct τ s r) (fun _ => True) (At n τ ε k p) := by
  unfold assertProduct
  refine Does.bind (product_does hs hd hb) fun q hq => ?_
  have hVW := hV.trans hVW
  have := rep_of_near hq hx (Nat.two_pow_pos m) hm hVW hu.mem
  refine Does.lift (a := ()) ?_ trivial
  rw [hr, ok_bind, this.close hτ hu hl hl' (SamePhase.refl _), assertIs_ok]

end Tests

end Stoq
