import Verif.Model.TestsCompile
import Verif.Proofs.RepoSequenceTests
import Verif.Proofs.Task
import Verif.Proofs.Text
import Verif.Proofs.CompileLoop

/-! # The tests that search for a sequence, in exact arithmetic: what each call does -/

namespace Stoq

open Matrix UnitaryDefinitions Tests

/-- The gates of a sequence can be multiplied. -/
theorem Rel.good {p : Plain} {c : Client} (h : Rel c p) {s : ℕ} {v : SeqView} (hs : p.seqs[s]? = some v) {n : ℕ}
    (hd : v.dimension = 2 ^ n) : ∀ e ∈ v.entries, e.WF ∧ e.Fits n ∧ e.Exact := by
  rcases forall₂_getElem? h.seqs s with ⟨h1, h2⟩ | ⟨r, v', h1, h2, h3⟩
  · rw [hs] at h2; cases h2
  · rw [hs] at h2; cases h2
    obtain ⟨o, ho, rfl⟩ := view_eq_some.mp h3
    have hrf := (h.wf.seq ho).entries
    have hd' : o.dimension = 2 ^ n := hd
    rw [hd'] at hrf
    exact refsOk_vals h.wf.entries hrf h.exact

namespace Tests

variable {p p' : Plain}

/-! ## Calls on sequences -/

theorem perform_exact {α : Type} {op : Op} {f : Client.Obs → Option α} {F : α → Prop} {y : Plain.Obs}
    (hq : op.OnQubits) (hi : ∀ c, op.NoSharedInverse c) (hs : p.step op = (.ok y, p'))
    (hf : ∀ obs, SameObs obs y → ∃ a, f obs = some a ∧ F a) :
    Does (Rel · p) (perform 0 op f) F (Rel · p') := by
  intro c hc
  obtain ⟨h1, h2⟩ := step_refines hc hq (hi c)
  rw [hs] at h1 h2
  rcases hx : c.step 0 op with ⟨_ | obs, c'⟩
  · rw [hx] at h1; exact absurd h1 (by simp [SameResult])
  · rw [hx] at h1 h2
    obtain ⟨a, hfa, hF⟩ := hf obs h1
    refine ⟨a, c', ?_, hF, h2⟩
    unfold perform
    rw [hx]
    simp only [hfa]

theorem product_exact {s n : ℕ} {v : SeqView} (hs : p.seqs[s]? = some v) (hd : v.dimension = 2 ^ n) :
    Does (Rel · p) (product 0 s) (fun u => u.Exact (2 ^ n) ∧ u.matrix.toMatrix (2 ^ n) = circuit n v.entries) (Rel · p) := by
  intro c hc
  have key : p.step (.product s) = (.ok (.op n (circuit n v.entries)), p) := by
    simp only [Plain.step, hs, Plain.with_]
    rw [hd, log2_pow]
  refine perform_exact (p' := p) (op := .product s) trivial (fun _ => trivial) key ?_ c hc
  rintro (_ | _ | _ | u | _) h
  all_goals first | exact h.elim | skip
  exact ⟨u, rfl, ⟨by positivity, h.1, h.2.1, by rw [h.2.2]; exact circuit_mem_su (hc.good hs hd)⟩, h.2.2⟩

theorem length_exact {s : ℕ} {v : SeqView} (hs : p.seqs[s]? = some v) :
    Does (Rel · p) (length 0 s) (fun l => l = v.entries.length) (Rel · p) := by
  refine perform_exact (p' := p) (op := .getLength s) (y := .length v.entries.length) trivial (fun _ => trivial)
    (by simp only [Plain.step, hs, Plain.with_]) ?_
  rintro (_ | _ | l | _ | _) h
  all_goals first | exact h.elim | skip
  exact ⟨l, rfl, h⟩

theorem assertLength_exact {s l : ℕ} {v : SeqView} (hs : p.seqs[s]? = some v) (hl : v.entries.length = l) :
    Does (Rel · p) (assertLength 0 s l) (fun _ => True) (Rel · p) := by
  unfold assertLength
  refine Does.bind (length_exact hs) fun a ha => Does.assert ?_
  rw [ha, hl]

theorem entryCount_exact {s : ℕ} {v : SeqView} (hs : p.seqs[s]? = some v) :
    Does (Rel · p) (entryCount 0 s) (fun l => l = v.entries.length) (Rel · { p with entries := p.entries ++ v.entries }) := by
  refine perform_exact (op := .getEntries s) (y := .entries v.entries) trivial (fun _ => trivial)
    (by simp only [Plain.step, hs, Plain.with_]) ?_
  rintro (_ | _ | _ | _ | l) h
  all_goals first | exact h.elim | skip
  exact ⟨_, rfl, congrArg _ h⟩

theorem text_exact {s : ℕ} {v : SeqView} {header : String} {f : Unitary → String} (hs : p.seqs[s]? = some v)
    (hh : header ≠ "") :
    Does (Rel · p) (textOf (Seq.textOutput 0 header f) s) (fun t => t ≠ "") (Rel · p) := by
  intro c hc
  rcases forall₂_getElem? hc.seqs s with ⟨h1, h2⟩ | ⟨r, v', h1, h2, hv⟩
  · rw [hs] at h2; cases h2
  rw [hs] at h2; cases h2
  obtain ⟨n, hn⟩ := hc.pow v (List.mem_of_getElem? hs)
  obtain ⟨ls, hls⟩ := freshLines_exact (f := f) (Rel.good hc hs hn)
  obtain ⟨o, ho, rfl⟩ := view_eq_some.mp hv
  have hn' : o.dimension = 2 ^ n := hn
  have hso := hc.wf.seq ho
  rw [← hn'] at hls
  have hw : Wp (Seq.textOutput 0 header f r) (fun res w' =>
      res = .ok (header ++ "\n".intercalate ls) ∧ Caches 0 c.world w') c.world := by
    unfold Seq.textOutput
    refine Wp.getSeq_bind ho (Wp.bind ((textLines_wp o.entries c.world hc.wf.entries hso.entries.lt).mono ?_))
    rintro res w' ⟨hres, hca⟩
    rw [show valsOf c.world.entries o.entries = (viewOf c.world.entries o).entries from rfl, hls] at hres
    subst hres
    exact Wp.pure ⟨rfl, hca⟩
  unfold Wp at hw
  rcases hx : Seq.textOutput 0 header f r c.world with ⟨res, w'⟩
  rw [hx] at hw
  obtain ⟨hres, hca⟩ := hw
  simp only at hres hca
  subst hres
  refine ⟨header ++ "\n".intercalate ls, { c with world := w' }, ?_, ?_, ?_⟩
  · unfold textOf
    rw [PyM.bind_of_ok (show PyM.get c = (.ok c, c) from rfl)]
    simp only [h1, PyM.zoom, hx]
  · intro h
    rw [← String.toList_inj, String.toList_append] at h
    refine hh ?_
    rw [← String.toList_inj]
    exact (List.append_eq_nil_iff.mp h).1
  · have hseq : w'.seqs = c.world.seqs := by rw [hca.eq]
    have hext : Ext 0 c.world w' := by
      refine ⟨⟨hca.ok, ?_⟩, hca.grow, by rw [hca.eq], by rw [hca.eq], ?_⟩
      · intro x hx
        rw [hseq] at hx
        exact (hc.wf.seqs x hx).grow hca.grow
      · intro t o ho
        exact ⟨o, by rw [hseq]; exact ho, .refl o⟩
    exact hc.quiet hext (hca.nonew.forall hc.exact) (hext.coh_of_seqs hc.wf hseq hc.coh)

theorem assertText_exact {s : ℕ} {v : SeqView} {header : String} {f : Unitary → String} (hs : p.seqs[s]? = some v)
    (hh : header ≠ "") :
    Does (Rel · p) (assertText (Seq.textOutput 0 header f) s) (fun _ => True) (Rel · p) := by
  unfold assertText
  exact Does.bind (text_exact hs hh) fun t ht => Does.assert ht

/-- The program ends normally exactly if `b` holds. -/
def Decides (P : Client → Prop) (m : PyM Client Unit) (b : Prop) : Prop := ∀ c, P c → ((m c).1 = .ok () ↔ b)

theorem Does.decides {P Q : Client → Prop} {α : Type} {m : PyM Client α} {g : α → PyM Client Unit} {F : α → Prop} {b : Prop}
    (h : Does P m F Q) (h' : ∀ a, F a → Decides Q (g a) b) : Decides P (m >>= g) b := by
  intro c hc
  obtain ⟨a, c', e, ha, hq⟩ := h c hc
  rw [PyM.bind_of_ok e]
  exact h' a ha c' hq

theorem Does.decides_true {P Q : Client → Prop} {m : PyM Client Unit} {F : Unit → Prop} (h : Does P m F Q) :
    Decides P m True := by
  intro c hc
  obtain ⟨a, c', e, -, -⟩ := h c hc
  rw [e]
  exact iff_of_true rfl trivial

/-- The program ends normally if `b` holds and with an assertion error otherwise. -/
def Checks (P : Client → Prop) (m : PyM Client Unit) (b : Prop) (Q : Client → Prop) : Prop :=
  ∀ c, P c → ∃ c', Q c' ∧ (b → m c = (.ok (), c')) ∧ (¬ b → m c = (.error .assertion, c'))

theorem Checks.bind {P Q : Client → Prop} {m rest : PyM Client Unit} {b b' : Prop} (h : Checks P m b Q)
    (hr : b → Decides Q rest b') : Decides P (do m; rest) (b ∧ b') := by
  intro c hc
  obtain ⟨c', hq, h1, h2⟩ := h c hc
  by_cases hb : b
  · rw [PyM.bind_of_ok (h1 hb), hr hb c' hq]
    simp [hb]
  · rw [PyM.bind_apply, h2 hb]
    simp [hb]

theorem Checks.decides {P Q : Client → Prop} {m : PyM Client Unit} {b : Prop} (h : Checks P m b Q) : Decides P m b := by
  intro c hc
  obtain ⟨c', -, h1, h2⟩ := h c hc
  by_cases hb : b
  · rw [h1 hb]; simp [hb]
  · rw [h2 hb]; simp [hb]

theorem lift_checks {P : Client → Prop} {x : Except PyErr Bool} {b : Prop}
    (hx : x = .ok (open Classical in decide b)) : Checks P (PyM.lift (assertIs true x)) b P := by
  intro c hc
  refine ⟨c, hc, fun hb => ?_, fun hb => ?_⟩
  · rw [PyM.lift_apply, hx]
    simp only [assertIs, ok_bind]
    rw [assertE_of ((@decide_eq_true_iff _ (Classical.propDecidable _)).mpr hb)]
  · rw [PyM.lift_apply, hx]
    simp only [assertIs, ok_bind]
    unfold assertE
    rw [if_neg fun h => hb ((@decide_eq_true_iff _ (Classical.propDecidable _)).mp h)]

theorem Does.checks {P Q R : Client → Prop} {α : Type} {m : PyM Client α} {g : α → PyM Client Unit} {F : α → Prop} {b : Prop}
    (h : Does P m F Q) (h' : ∀ a, F a → Checks Q (g a) b R) : Checks P (m >>= g) b R := by
  intro c hc
  obtain ⟨a, c', e, ha, hq⟩ := h c hc
  rw [PyM.bind_of_ok e]
  exact h' a ha c' hq

theorem assertClose_checks {s n : ℕ} {v : SeqView} (hs : p.seqs[s]? = some v) (hd : v.dimension = 2 ^ n)
    {r : Except PyErr Unitary} {u : Unitary} (hr : r = .ok u) (hu : u.Exact (2 ^ n)) (threshold : Option ℝ) :
    Checks (Rel · p) (assertClose 0 s r threshold)
      (Metropolis.GoodEnough threshold (1 - overlap (u.matrix.toMatrix (2 ^ n)) (circuit n v.entries))) (Rel · p) := by
  unfold assertClose
  refine (product_exact hs hd).checks fun q hq => lift_checks ?_
  rw [hr, ok_bind]
  exact closeTo_goodEnough threshold hq.1 hu hq.2

theorem assertCloseTo_checks {s n : ℕ} {v : SeqView} (hs : p.seqs[s]? = some v) (hd : v.dimension = 2 ^ n)
    {u : Unitary} (hu : u.Exact (2 ^ n)) (threshold : Option ℝ) :
    Checks (Rel · p) (assertCloseTo 0 u s threshold)
      (Metropolis.GoodEnough threshold (1 - overlap (u.matrix.toMatrix (2 ^ n)) (circuit n v.entries))) (Rel · p) := by
  unfold assertCloseTo
  refine (product_exact hs hd).checks fun q hq => lift_checks ?_
  rcases threshold with _ | t
  · rw [Unitary.closeTo_none_eq hu hq.1, hq.2]
    norm_num [Metropolis.GoodEnough]
  · rw [Unitary.closeTo_some_eq hu hq.1, hq.2]
    simp only [Metropolis.GoodEnough]
    congr 2
    exact propext ⟨fun h => by linarith, fun h => by linarith⟩

theorem assertQasm_exact {s : ℕ} {v : SeqView} (fmt : ℕ → ℝ → String) (hs : p.seqs[s]? = some v) :
    Does (Rel · p) (assertText (Seq.getQasm 0 fmt) s) (fun _ => True) (Rel · p) := assertText_exact hs (by decide)

theorem assertJaqal_exact {s : ℕ} {v : SeqView} (fmt : ℕ → ℝ → String) (hs : p.seqs[s]? = some v) :
    Does (Rel · p) (assertText (Seq.getJaqal 0 fmt) s) (fun _ => True) (Rel · p) := assertText_exact hs (by decide)

theorem assertDisplay_exact {s : ℕ} {v : SeqView} (fmt : ℕ → ℝ → String) (hs : p.seqs[s]? = some v) :
    Does (Rel · p) (assertText (Seq.getDisplayOutput 0 fmt) s) (fun _ => True) (Rel · p) := assertText_exact hs (by decide)

/-- The assertions of the compiler tests. -/
theorem assertCompiled_decides {s n : ℕ} {v : SeqView} (fmt : ℕ → ℝ → String) (hs : p.seqs[s]? = some v)
    (hd : v.dimension = 2 ^ n) {u : Unitary} (hu : u.Exact (2 ^ n)) :
    Decides (Rel · p) (assertCompiled 0 fmt s u)
      (Metropolis.GoodEnough none (1 - overlap (u.matrix.toMatrix (2 ^ n)) (circuit n v.entries))) := by
  unfold assertCompiled
  have := (assertClose_checks hs hd (r := pure u) rfl hu none).bind (b' := True) fun _ =>
    (assertQasm_exact fmt hs).decides (b := True) fun _ _ => (assertDisplay_exact fmt hs).decides_true
  simpa using this

/-! ## Calls that return a sequence -/

/-- What a call that returns a sequence does. -/
theorem returned_cases {c : Client} {Cs : List Compiler} (h : Mirror c Cs p) {T : Task} (hT : T.Uses Cs) (hQ : T.OnQubits) :
    (∃ e w c', T.run 0 c.world = (.error e, w) ∧ returned 0 T c = (.error e, c')) ∨
    ∃ s w v c', T.run 0 c.world = (.ok s, w) ∧ w.view s = some v ∧ returned 0 T c = (.ok p.seqs.length, c') ∧
      Mirror c' Cs { p with seqs := p.seqs ++ [v] } := by
  rcases hr : T.run 0 c.world with ⟨e | s, w⟩
  · left
    have ht : c.task 0 T = (.error e, { c with world := w }) := (Client.call_eq (m := T.run 0)).2 e w hr
    exact ⟨e, w, _, rfl, by unfold returned; rw [ht]⟩
  · right
    have ht : c.task 0 T = (.ok .handle, ⟨w, c.entries ++ [], c.seqs ++ [s]⟩) := (Client.call_eq (m := T.run 0)).1 s w hr
    obtain ⟨v, h1, -, -⟩ := (h.rel.2.task h.rel.1 hT hQ).2 s w hr
    refine ⟨s, w, v, (c.task 0 T).2, rfl, h1, ?_, ?_⟩
    · unfold returned
      rw [ht]
      simp only [List.Forall₂.length_eq h.rel.2.seqs]
    · exact .taskOk T h hT hQ hr h1

/-- A test that begins with such a call. -/
theorem returned_decides {c : Client} {Cs : List Compiler} (h : Mirror c Cs p) {T : Task} (hT : T.Uses Cs) (hQ : T.OnQubits)
    {g : ℕ → PyM Client Unit} {b : SeqView → Prop}
    (hg : ∀ s w v, T.run 0 c.world = (.ok s, w) → w.view s = some v → Decides (Rel · { p with seqs := p.seqs ++ [v] }) (g p.seqs.length) (b v)) :
    ((returned 0 T >>= g) c).1 = .ok () ↔ ∃ s w v, T.run 0 c.world = (.ok s, w) ∧ w.view s = some v ∧ b v := by
  rcases returned_cases h hT hQ with ⟨e, w, c', h1, h2⟩ | ⟨s, w, v, c', h1, h2, h3, h4⟩
  · rw [PyM.bind_apply, h2, h1]
    simp
  · rw [PyM.bind_of_ok h3, hg s w v h1 h2 c' h4.rel.2, h1]
    constructor
    · intro hb; exact ⟨s, w, v, rfl, h2, hb⟩
    · rintro ⟨s', w', v', e, hv, hb⟩
      cases e
      rw [h2] at hv; cases hv
      exact hb

end Tests

end Stoq
