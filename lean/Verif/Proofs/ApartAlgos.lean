import Verif.Proofs.Apart
import Verif.Proofs.HamiltonianPost

/-!
# The algorithms return sequences without shared entry objects
-/

namespace Stoq

open World

variable {base : ℕ} {P : EntryVal → Prop} {w w' : World} {α β : Type}

/-! ## New entries -/

/-- A computation that changes no sequence and returns new entry objects, no two the same. -/
def Makes (P : EntryVal → Prop) (m : PyM World (List ℕ)) : Prop := ∀ w, Wp m (fun res w' => w'.seqs = w.seqs ∧
  w.entries.length ≤ w'.entries.length ∧ ValsKept P w w' ∧
  ∀ rs, res = .ok rs → ListApart w'.entries.length rs ∧ ∀ r ∈ rs, w.entries.length ≤ r) w

/-- A computation that changes no sequence and returns a new entry object. -/
def MakesOne (P : EntryVal → Prop) (m : PyM World ℕ) : Prop := ∀ w, Wp m (fun res w' => w'.seqs = w.seqs ∧
  w.entries.length ≤ w'.entries.length ∧ ValsKept P w w' ∧
  ∀ e, res = .ok e → w.entries.length ≤ e ∧ e < w'.entries.length) w

/-- A computation that changes neither sequences nor entries and returns a value with the property `T`. -/
def Quiet (T : α → Prop) (m : PyM World α) : Prop :=
  ∀ w, (m w).2.seqs = w.seqs ∧ (m w).2.entries = w.entries ∧ ∀ a, (m w).1 = .ok a → T a

theorem Quiet.withRng {T : α → Prop} {x : PyM Rng α} (h : ∀ r a r', x r = (.ok a, r') → T a) :
    Quiet T (World.withRng x) := fun w => ⟨rfl, rfl, fun a ha => h w.rng a (x w.rng).2 (Prod.ext ha rfl)⟩
theorem Quiet.lift {T : α → Prop} {x : Except PyErr α} (h : ∀ a, x = .ok a → T a) :
    Quiet T (PyM.lift x : PyM World α) := fun _ => ⟨rfl, rfl, fun a ha => h a ha⟩
theorem Quiet.pure {T : α → Prop} {a : α} (h : T a) : Quiet T (Pure.pure a : PyM World α) :=
  fun _ => ⟨rfl, rfl, fun _ h' => by cases h'; exact h⟩

theorem Quiet.wp_bind {T : α → Prop} {m : PyM World α} (hm : Quiet T m) {f : α → PyM World β}
    {Q : Except PyErr β → World → Prop}
    (he : ∀ e w', w'.seqs = w.seqs → w'.entries = w.entries → Q (.error e) w')
    (h : ∀ a w', T a → w'.seqs = w.seqs → w'.entries = w.entries → Wp (f a) Q w') : Wp (m >>= f) Q w := by
  refine Wp.bind ?_
  unfold Wp
  obtain ⟨h1, h2, h3⟩ := hm w
  rcases hmw : m w with ⟨e | a, w1⟩
  · rw [hmw] at h1 h2; exact he e w1 h1 h2
  · rw [hmw] at h1 h2 h3; exact h a w1 (h3 a rfl) h1 h2

theorem valsKept_of_eq (h : w'.entries = w.entries) : ValsKept P w w' := fun hv => by rw [h]; exact hv

theorem Makes.pre {T : α → Prop} {m : PyM World α} (hm : Quiet T m) {f : α → PyM World (List ℕ)}
    (hf : ∀ a, T a → Makes P (f a)) : Makes P (m >>= f) := by
  intro w
  refine hm.wp_bind (fun e w1 h1 h2 => ⟨h1, by rw [h2], valsKept_of_eq h2, fun _ h => by cases h⟩) fun a w1 ha h1 h2 => ?_
  refine (hf a ha w1).mono fun res w2 h => ?_
  unfold ValsKept at h ⊢
  rw [h1, h2] at h
  exact h

theorem MakesOne.pre {T : α → Prop} {m : PyM World α} (hm : Quiet T m) {f : α → PyM World ℕ}
    (hf : ∀ a, T a → MakesOne P (f a)) : MakesOne P (m >>= f) := by
  intro w
  refine hm.wp_bind (fun e w1 h1 h2 => ⟨h1, by rw [h2], valsKept_of_eq h2, fun _ h => by cases h⟩) fun a w1 ha h1 h2 => ?_
  refine (hf a ha w1).mono fun res w2 h => ?_
  unfold ValsKept at h ⊢
  rw [h1, h2] at h
  exact h

theorem MakesOne.allocEntry {o : EntryObj} (ho : P o.toVal) : MakesOne P (World.allocEntry o) := fun w =>
  ⟨rfl, by simp [World.allocEntry], fun hv x hx => by
    simp only [World.allocEntry] at hx
    rcases List.mem_append.mp hx with hx | hx
    · exact hv x hx
    · rw [List.mem_singleton] at hx; subst hx; exact ho, fun e h => by
    simp only [World.allocEntry, Except.ok.injEq] at h
    subst h
    simp [World.allocEntry]⟩

theorem Makes.nil : Makes P (pure []) := fun _ =>
  ⟨rfl, le_rfl, id, fun rs h => by cases h; exact ⟨⟨by simp, by simp⟩, by simp⟩⟩

theorem Makes.raise (e : PyErr) : Makes P (PyM.raise e) := fun _ => ⟨rfl, le_rfl, id, fun rs h => by cases h⟩

theorem Makes.cons {m : PyM World ℕ} {m' : PyM World (List ℕ)} (h : MakesOne P m) (h' : Makes P m') :
    Makes P (m >>= fun e => m' >>= fun es => pure (e :: es)) := by
  intro w
  refine Wp.bind ((h w).mono ?_)
  rintro (e | e) w1 ⟨h1, h2, hv, h3⟩
  · exact ⟨h1, h2, hv, fun _ h => by cases h⟩
  obtain ⟨h4, h5⟩ := h3 e rfl
  refine Wp.bind ((h' w1).mono ?_)
  rintro (x | es) w2 ⟨h6, h7, hv', h8⟩
  · exact ⟨h6.trans h1, h2.trans h7, fun h => hv' (hv h), fun _ h => by cases h⟩
  obtain ⟨h9, h10⟩ := h8 es rfl
  refine Wp.pure ⟨h6.trans h1, h2.trans h7, fun h => hv' (hv h), fun rs h => ?_⟩
  cases h
  refine ⟨⟨List.nodup_cons.mpr ⟨fun hm => by have := h10 e hm; omega, h9.1⟩, ?_⟩, ?_⟩
  · intro r hr
    rcases List.mem_cons.mp hr with rfl | hr
    · omega
    · exact h9.2 r hr
  · intro r hr
    rcases List.mem_cons.mp hr with rfl | hr
    · exact h4
    · have := h10 r hr; omega

theorem ListApart.append {N M : ℕ} {as bs : List ℕ} (ha : ListApart N as) (hb : ListApart M bs) (hNM : N ≤ M)
    (hn : ∀ r ∈ bs, N ≤ r) : ListApart M (as ++ bs) := by
  refine ⟨List.nodup_append.mpr ⟨ha.1, hb.1, ?_⟩, ?_⟩
  · rintro a h1 b h2 rfl
    have := ha.2 a h1
    have := hn a h2
    omega
  · intro r hr
    rcases List.mem_append.mp hr with hr | hr
    · exact (ha.2 r hr).trans_le hNM
    · exact hb.2 r hr

theorem Makes.append {m m' : PyM World (List ℕ)} (h : Makes P m) (h' : Makes P m') :
    Makes P (m >>= fun es => m' >>= fun fs => pure (es ++ fs)) := by
  intro w
  refine Wp.bind ((h w).mono ?_)
  rintro (e | es) w1 ⟨h1, h2, hv, h3⟩
  · exact ⟨h1, h2, hv, fun _ h => by cases h⟩
  obtain ⟨h4, h5⟩ := h3 es rfl
  refine Wp.bind ((h' w1).mono ?_)
  rintro (x | fs) w2 ⟨h6, h7, hv', h8⟩
  · exact ⟨h6.trans h1, h2.trans h7, fun h => hv' (hv h), fun _ h => by cases h⟩
  obtain ⟨h9, h10⟩ := h8 fs rfl
  refine Wp.pure ⟨h6.trans h1, h2.trans h7, fun h => hv' (hv h), fun rs h => ?_⟩
  cases h
  refine ⟨h4.append h9 h7 h10, fun r hr => ?_⟩
  rcases List.mem_append.mp hr with hr | hr
  · exact h5 r hr
  · have := h10 r hr; omega

theorem createRandomSequenceEntry_makes {τ : Arith} {D : ℕ} {ps : List Primitive} {q : Option (List ℝ)}
    (hP : ∀ v, Generated τ D ps q v → P v) : MakesOne P (Compiler.createRandomSequenceEntry τ D ps q) := by
  unfold Compiler.createRandomSequenceEntry
  exact MakesOne.pre (T := P) (Quiet.withRng fun r v r' h => hP v ⟨r, r', h⟩) fun v hv => .allocEntry hv

theorem entryNew_makes {u : Unitary} {qs : List ℤ} (hP : ∀ v, EntryVal.new u qs = .ok v → P v) :
    MakesOne P (Entry.new u qs) := by
  unfold Entry.new
  exact MakesOne.pre (T := P) (Quiet.lift hP) fun v hv => .allocEntry hv

theorem createMany_makes {τ : Arith} {D : ℕ} {p : Primitive} (hP : ∀ v, Generated τ D [p] none v → P v) (n : ℕ) :
    Makes P (Compiler.createMany τ D p n) := by
  induction n with
  | zero => exact .nil
  | succ n ih => exact .cons (createRandomSequenceEntry_makes hP) ih

theorem createLayerEntries_makes {τ : Arith} {D : ℕ} {counts : List (Primitive × ℤ)}
    (hP : ∀ v, GeneratedLayer τ D counts v → P v) : Makes P (Compiler.createLayerEntries τ D counts) := by
  induction counts with
  | nil => exact .nil
  | cons pc rest ih =>
    exact .append (createMany_makes (fun v hv => hP v ⟨pc, by simp, hv⟩) _)
      (ih fun v ⟨pc, h, hv⟩ => hP v ⟨pc, by simp [h], hv⟩)

theorem createRandomLayer_makes {τ : Arith} {D : ℕ} {counts : List (Primitive × ℤ)}
    (hP : ∀ v, GeneratedLayer τ D counts v → P v) : Makes P (Compiler.createRandomLayer τ D counts) := by
  intro w
  unfold Compiler.createRandomLayer
  refine Wp.bind ((createLayerEntries_makes hP w).mono ?_)
  rintro (e | es) w1 ⟨h1, h2, hv, h3⟩
  · exact ⟨h1, h2, hv, fun _ h => by cases h⟩
  obtain ⟨h4, h5⟩ := h3 es rfl
  obtain ⟨l, r', hl, hp⟩ := Rng.shuffle_perm es w1.rng
  have : World.withRng (Rng.shuffle es) w1 = (.ok l, { w1 with rng := r' }) := by
    simp only [World.withRng, PyM.zoom, hl]
  show Wp (World.withRng (Rng.shuffle es)) _ w1
  unfold Wp
  rw [this]
  refine ⟨h1, h2, hv, fun rs h => ?_⟩
  cases h
  exact ⟨⟨hp.nodup_iff.mpr h4.1, fun r hr => h4.2 r (hp.mem_iff.mp hr)⟩, fun r hr => h5 r (hp.mem_iff.mp hr)⟩

theorem idealEntries_makes {H : Hamiltonian} {u : Unitary} (hP : ∀ v, EntryVal.new u H.applyTo = .ok v → P v) (n : ℕ) :
    Makes P (H.idealEntries u n) := by
  induction n with
  | zero => exact .nil
  | succ n ih => exact .cons (entryNew_makes hP) ih

theorem trotterStep_makes {τ : Arith} {H : Hamiltonian} {t : ℝ}
    (hP : ∀ v, EvolveEntry τ H.getQubitCount (H.TrotterP t) v → P v) (is : List ℕ) :
    Makes P (H.trotterStep τ t is) := by
  induction is with
  | nil => exact .nil
  | cons i is ih =>
    unfold Hamiltonian.trotterStep
    rcases ht : H.terms[i]? with _ | term
    · exact .raise _
    · refine .pre (T := fun u => UnitaryDefinitions.timeEvolution τ term.getMatrix t (toString i) = .ok u) (Quiet.lift fun _ h => h)
        fun u hu => .cons (entryNew_makes fun v hv => hP v ?_) ih
      obtain ⟨h1, h2, h3⟩ := entryNew_range hv
      exact ⟨h3, _, _, _, ⟨rfl, i, term, ht, rfl, rfl⟩, h2 ▸ hu⟩

theorem trotterLoop_makes {τ : Arith} {H : Hamiltonian} {t : ℝ}
    (hP : ∀ v, EvolveEntry τ H.getQubitCount (H.TrotterP t) v → P v) (b : Bool) (n : ℕ) (is : List ℕ) :
    Makes P (H.trotterLoop τ t b n is) := by
  induction n generalizing is with
  | zero => exact .nil
  | succ n ih =>
    unfold Hamiltonian.trotterLoop
    cases b
    · exact .pre (T := fun _ => True) (m := pure is) (Quiet.pure trivial) fun is' _ =>
        .append (trotterStep_makes hP _) (ih _)
    · exact .pre (T := fun _ => True) (Quiet.withRng fun _ _ _ _ => trivial) fun is' _ =>
        .append (trotterStep_makes hP _) (ih _)

theorem qdriftLoop_makes {τ : Arith} {H : Hamiltonian} {t : ℝ}
    (hP : ∀ v, EvolveEntry τ H.getQubitCount (H.QdriftP t) v → P v) (n : ℕ) : Makes P (H.qdriftLoop τ t n) := by
  induction n with
  | zero => exact .nil
  | succ n ih =>
    unfold Hamiltonian.qdriftLoop
    refine .pre (T := fun _ => True) (Quiet.withRng fun _ _ _ _ => trivial) fun i _ => ?_
    rcases ht : H.terms[i]? with _ | term
    · exact .raise _
    · refine .pre (T := fun u => UnitaryDefinitions.timeEvolution τ term.normalizedMatrix t (toString i ++ " λ/N") = .ok u)
        (Quiet.lift fun _ h => h) fun u hu => .cons (entryNew_makes fun v hv => hP v ?_) ih
      obtain ⟨h1, h2, h3⟩ := entryNew_range hv
      exact ⟨h3, _, _, _, ⟨rfl, i, term, ht, rfl, rfl⟩, h2 ▸ hu⟩

/-! ## New sequences -/

/-- A computation that keeps the sequences apart and returns (with `f`) one that was made on the way. -/
def Gives (base : ℕ) (P : EntryVal → Prop) (f : α → ℕ) (m : PyM World α) : Prop :=
  ∀ w, Apart base w → Wp m (fun res w' => Keep base P w w' ∧ ∀ R, res = .ok R → base ≤ f R) w

theorem Gives.pre {f : β → ℕ} {m : PyM World α} {k : α → PyM World β} (hm : Keeps base P m) (hk : ∀ a, Gives base P f (k a)) :
    Gives base P f (m >>= k) := by
  intro w hw
  refine Wp.bind ((hm w hw).mono ?_)
  rintro (e | a) w1 h1
  · exact ⟨h1, fun _ h => by cases h⟩
  · exact (hk a w1 h1.apart).mono fun _ _ h => ⟨h1.trans h.1, h.2⟩

theorem Gives.bind {f : α → ℕ} {g : β → ℕ} {m : PyM World α} {k : α → PyM World β} (hm : Gives base P f m)
    (hk : ∀ a, base ≤ f a → Gives base P g (k a)) : Gives base P g (m >>= k) := by
  intro w hw
  refine Wp.bind ((hm w hw).mono ?_)
  rintro (e | a) w1 ⟨h1, h2⟩
  · exact ⟨h1, fun _ h => by cases h⟩
  · exact (hk a (h2 a rfl) w1 h1.apart).mono fun _ _ h => ⟨h1.trans h.1, h.2⟩

theorem Gives.pure {f : α → ℕ} {a : α} (h : base ≤ f a) : Gives base P f (Pure.pure a) := fun _ hw =>
  ⟨Keep.refl hw, fun _ h' => by cases h'; exact h⟩

theorem Gives.raise {f : α → ℕ} (e : PyErr) : Gives base P f (PyM.raise e) := fun _ hw =>
  ⟨Keep.refl hw, fun _ h => by cases h⟩

theorem Gives.keeps {f : α → ℕ} {m : PyM World α} (h : Gives base P f m) : Keeps base P m := fun w hw =>
  (h w hw).mono fun _ _ h => h.1

theorem Keeps.forM {l : List α} {f : α → PyM World Unit} (h : ∀ a, Keeps base P (f a)) : Keeps base P (l.forM f) := by
  induction l with
  | nil => exact .pure _
  | cons a l ih => exact (h a).bind fun _ => ih

theorem new_gives (D : ℕ) (b : Bool) {rs : List ℕ} (h : rs.Nodup) : Gives base P id (Seq.new D b rs) := by
  unfold Seq.new
  refine Gives.pre (Keeps.forM fun e => .assertIsEntryValid _ _) fun _ w hw => ?_
  refine Wp.bind ((deepcopy_apart (P := P) h hw).mono ?_)
  rintro (e | cs) w1 ⟨h1, h2, h3⟩
  · exact ⟨h1, fun _ h => by cases h⟩
  have hcs := (h3 cs rfl).1
  refine ⟨⟨⟨?_, ?_⟩, ?_, ?_, ?_⟩, ?_⟩
  · simpa [World.allocSeq] using h1.apart.len.trans (Nat.le_succ _)
  · intro s o hb ho
    simp only [World.allocSeq] at ho ⊢
    rw [List.getElem?_append] at ho
    split at ho
    · exact h1.apart.seq s o hb ho
    · rw [List.getElem?_singleton] at ho
      split at ho
      · cases ho
        exact ⟨hcs, fun _ h => by cases h⟩
      · cases ho
  · exact h1.ents
  · intro t ht
    rw [← h1.old t ht]
    simp only [World.allocSeq]
    rw [List.getElem?_append_left (by have := h1.apart.len; omega)]
  · exact h1.vals
  · intro R hR
    simp only [World.allocSeq, Except.ok.injEq] at hR
    subst hR
    exact h1.apart.len

theorem makes_new_gives {m : PyM World (List ℕ)} (hm : Makes P m) (D : ℕ) (b : Bool) :
    Gives base P id (m >>= fun es => Seq.new D b es) := by
  intro w hw
  refine Wp.bind ((hm w).mono ?_)
  rintro (e | es) w1 ⟨h1, h2, hv, h3⟩
  · exact ⟨Keep.grow hw h1 h2 hv, fun _ h => by cases h⟩
  · have k1 := Keep.grow hw h1 h2 hv
    exact (new_gives D b (h3 es rfl).1.1 w1 k1.apart).mono fun _ _ h => ⟨k1.trans h.1, h.2⟩

/-! ## The search -/

section

variable {s : ℕ}

theorem makesOne_append {m : PyM World ℕ} (hm : MakesOne P m) {k : ℕ → PyM World Unit} (hs : base ≤ s)
    (hk : ∀ w e, Apart base w → NewAt s e w → Wp (k e) (fun _ w' => Keep base P w w') w) : Keeps base P (m >>= k) := by
  intro w hw
  refine Wp.bind ((hm w).mono ?_)
  rintro (e | e) w1 ⟨h1, h2, hv, h3⟩
  · exact Keep.grow hw h1 h2 hv
  · have k1 := Keep.grow hw h1 h2 hv
    refine (hk w1 e k1.apart ⟨(h3 e rfl).2, fun o ho hm => ?_⟩).mono fun _ _ h => k1.trans h
    rw [h1] at ho
    have := (hw.seq s o hs ho).1.2 e hm
    have := (h3 e rfl).1
    omega

theorem makes_append {m : PyM World (List ℕ)} (hm : Makes P m) {k : List ℕ → PyM World Unit} (hs : base ≤ s)
    (hk : ∀ w es, Apart base w → es.Nodup → (∀ e ∈ es, NewAt s e w) → Wp (k es) (fun _ w' => Keep base P w w') w) :
    Keeps base P (m >>= k) := by
  intro w hw
  refine Wp.bind ((hm w).mono ?_)
  rintro (e | es) w1 ⟨h1, h2, hv, h3⟩
  · exact Keep.grow hw h1 h2 hv
  · have k1 := Keep.grow hw h1 h2 hv
    obtain ⟨h4, h5⟩ := h3 es rfl
    refine (hk w1 es k1.apart h4.1 fun e he => ⟨h4.2 e he, fun o ho hm => ?_⟩).mono fun _ _ h => k1.trans h
    rw [h1] at ho
    have := (hw.seq s o hs ho).1.2 e hm
    have := h5 e he
    omega

/-- Objects still new after another one has been added. -/
theorem NewAt.after {e : ℕ} {es : List ℕ} (h : ApartPost base s P [e] w w') (hn : ∀ x ∈ es, NewAt s x w)
    (he : e ∉ es) : ∀ x ∈ es, NewAt s x w' := by
  refine fun x hx => ⟨(hn x hx).1.trans_le h.1.ents, fun o ho hm => ?_⟩
  rcases h.2 o ho x hm with h1 | ⟨o', h1, h2⟩
  · rw [List.mem_singleton] at h1; exact he (h1 ▸ hx)
  · exact (hn x hx).2 o' h1 h2

theorem appendFirstAll_keep (τ : Arith) (hs : base ≤ s) (es : List ℕ) (b : Bool) (w : World) (hw : Apart base w)
    (hnd : es.Nodup) (hn : ∀ e ∈ es, NewAt s e w) :
    Wp (Compiler.appendFirstAll τ s b es) (fun _ w' => Keep base P w w') w := by
  induction es generalizing b w with
  | nil => exact Keep.refl hw
  | cons e es ih =>
    rw [Compiler.appendFirstAll]
    obtain ⟨h1, h2⟩ := List.nodup_cons.mp hnd
    refine Wp.bind ((appendFirst_apart (P := P) τ hs hw (hn e (by simp)) b).mono ?_)
    rintro (err | u) w1 k1
    · exact k1.1
    · exact (ih false w1 k1.1.apart h2 (NewAt.after k1 (fun x hx => hn x (by simp [hx])) h1)).mono
        fun _ _ h => k1.1.trans h

theorem appendLastAll_keep (τ : Arith) (hs : base ≤ s) (es : List ℕ) (b : Bool) (w : World) (hw : Apart base w)
    (hnd : es.Nodup) (hn : ∀ e ∈ es, NewAt s e w) :
    Wp (Compiler.appendLastAll τ s b es) (fun _ w' => Keep base P w w') w := by
  induction es generalizing b w with
  | nil => exact Keep.refl hw
  | cons e es ih =>
    rw [Compiler.appendLastAll]
    obtain ⟨h1, h2⟩ := List.nodup_cons.mp hnd
    refine Wp.bind ((appendLast_apart (P := P) τ hs hw (hn e (by simp)) b).mono ?_)
    rintro (err | u) w1 k1
    · exact k1.1
    · exact (ih false w1 k1.1.apart h2 (NewAt.after k1 (fun x hx => hn x (by simp [hx])) h1)).mono
        fun _ _ h => k1.1.trans h

theorem appendAll_keep (τ : Arith) (hs : base ≤ s) (es : List ℕ) (w : World) (hw : Apart base w)
    (hnd : es.Nodup) (hn : ∀ e ∈ es, NewAt s e w) :
    Wp (Verification.appendAll τ s es) (fun _ w' => Keep base P w w') w := by
  induction es generalizing w with
  | nil => exact Keep.refl hw
  | cons e es ih =>
    rw [Verification.appendAll]
    obtain ⟨h1, h2⟩ := List.nodup_cons.mp hnd
    refine Wp.bind ((appendLast_apart (P := P) τ hs hw (hn e (by simp)) true).mono ?_)
    rintro (err | u) w1 k1
    · exact k1.1
    · exact (ih w1 k1.1.apart h2 (NewAt.after k1 (fun x hx => hn x (by simp [hx])) h1)).mono
        fun _ _ h => k1.1.trans h

theorem removeFirst_keeps (τ : Arith) (hs : base ≤ s) (b : Bool) : Keeps base P (Seq.removeFirst τ s b) := fun _ hw =>
  (removeFirst_apart τ hs hw b).mono fun _ _ h => h.1

theorem removeLast_keeps (τ : Arith) (hs : base ≤ s) (b : Bool) : Keeps base P (Seq.removeLast τ s b) := fun _ hw =>
  (removeLast_apart τ hs hw b).mono fun _ _ h => h.1

theorem removeFirstN_keeps (τ : Arith) (hs : base ≤ s) (n : ℕ) (b : Bool) : Keeps base P (Compiler.removeFirstN τ s b n) := by
  induction n generalizing b with
  | zero => exact .pure _
  | succ n ih => exact (removeFirst_keeps τ hs b).bind fun _ => ih false

theorem removeLastN_keeps (τ : Arith) (hs : base ≤ s) (n : ℕ) (b : Bool) : Keeps base P (Compiler.removeLastN τ s b n) := by
  induction n generalizing b with
  | zero => exact .pure _
  | succ n ih => exact (removeLast_keeps τ hs b).bind fun _ => ih false

theorem chooseAction_keeps (C : Compiler) : Keeps base P C.chooseAction := by
  unfold Compiler.chooseAction
  refine (Keeps.withRng _).bind fun i => ?_
  split
  · exact .raise _
  · exact .pure _

theorem makeRandomChange_keeps {τ : Arith} {C : Compiler}
    (hP : ∀ v, Generated τ C.dimension C.primitives C.probabilities v → P v) (hs : base ≤ s) : Keeps base P (C.makeRandomChange τ s) := by
  unfold Compiler.makeRandomChange
  refine (chooseAction_keeps C).bind fun a => ?_
  split
  · exact makesOne_append (createRandomSequenceEntry_makes hP) hs fun w e hw he =>
      (appendFirst_apart τ hs hw he true).mono fun _ _ h => h.1
  · exact makesOne_append (createRandomSequenceEntry_makes hP) hs fun w e hw he =>
      (appendLast_apart τ hs hw he true).mono fun _ _ h => h.1
  · exact removeFirst_keeps τ hs true
  · exact removeLast_keeps τ hs true

theorem makeRandomChangeLayered_keeps {τ : Arith} {C : Compiler} {counts : List (Primitive × ℤ)}
    (hP : ∀ v, GeneratedLayer τ C.dimension counts v → P v) (hs : base ≤ s) :
    Keeps base P (C.makeRandomChangeLayered τ counts s) := by
  unfold Compiler.makeRandomChangeLayered
  refine (chooseAction_keeps C).bind fun a => ?_
  simp only
  split
  · exact makes_append (createRandomLayer_makes hP) hs fun w es hw h1 h2 => appendFirstAll_keep τ hs es true w hw h1 h2
  · exact makes_append (createRandomLayer_makes hP) hs fun w es hw h1 h2 => appendLastAll_keep τ hs es true w hw h1 h2
  · exact removeFirstN_keeps τ hs _ true
  · exact removeLastN_keeps τ hs _ true

theorem compileStep_keeps (τ : Arith) (C : Compiler) {change : ℕ → PyM World Unit} (target : Unitary) (hs : base ≤ s)
    (hc : Keeps base P (change s)) : Keeps base P (C.compileStep τ change target s) := by
  unfold Compiler.compileStep Compiler.acceptProposedChange
  refine (Keeps.getBeta _).bind fun _ => (Keeps.setBeta _ _).bind fun _ => (Keeps.product τ hs).bind fun _ =>
    hc.bind fun _ => (Keeps.lift _).bind fun _ => (Keeps.product τ hs).bind fun _ => (Keeps.lift _).bind fun _ =>
    ((Keeps.getBeta _).bind fun _ => (Keeps.withRng _).bind fun _ => .pure _).bind fun b => ?_
  cases b
  · exact (undo_keeps hs).bind fun _ => .pure _
  · exact .pure _

theorem loopTest_keeps (τ : Arith) (hs : base ≤ s) (target : Unitary) (threshold : Option ℝ) (m : ℤ) (costs : List ℝ)
    {next : PyM World (List ℝ)} (hn : Keeps base P next) :
    Keeps base P (Compiler.loopTest τ target threshold m s costs next) := by
  unfold Compiler.loopTest Compiler.isClose
  refine ((Keeps.product τ hs).bind fun _ => Keeps.lift _).bind fun b => ?_
  split
  · exact .pure _
  · split
    · exact .pure _
    · exact hn

theorem compileLoop_keeps (τ : Arith) (C : Compiler) {change : ℕ → PyM World Unit} (target : Unitary) (threshold : Option ℝ)
    (m : ℤ) (hs : base ≤ s) (hc : Keeps base P (change s)) (fuel : ℕ) (costs : List ℝ) :
    Keeps base P (C.compileLoop τ change target threshold m s fuel costs) := by
  induction fuel generalizing costs with
  | zero => exact loopTest_keeps τ hs target threshold m costs (.raise _)
  | succ n ih =>
    exact loopTest_keeps τ hs target threshold m costs ((compileStep_keeps τ C target hs hc).bind fun c => ih _)

end

theorem compileWith_gives (τ : Arith) (C : Compiler) {change : ℕ → PyM World Unit} (target : Unitary) (threshold : Option ℝ)
    (m : ℤ) (hc : ∀ s, base ≤ s → Keeps base P (change s)) :
    Gives base P CompilerResult.sequence (C.compileWith τ change target threshold m) := by
  unfold Compiler.compileWith
  refine (new_gives C.dimension false List.nodup_nil).bind fun s hs => ?_
  exact Gives.pre (compileLoop_keeps τ C target threshold m hs (hc s hs) _ _) fun costs => .pure hs

theorem compile_gives {τ : Arith} {C : Compiler}
    (hP : ∀ v, Generated τ C.dimension C.primitives C.probabilities v → P v) (target : Unitary) (threshold : Option ℝ) (m : ℤ) :
    Gives base P CompilerResult.sequence (C.compile τ target threshold m) := by
  unfold Compiler.compile
  exact Gives.pre (Keeps.lift _) fun _ => Gives.pre (Keeps.assert _) fun _ =>
    compileWith_gives τ C target threshold m fun _ hs => makeRandomChange_keeps hP hs

theorem compileLayered_gives {τ : Arith} {C : Compiler} {counts : List (Primitive × ℤ)}
    (hP : ∀ v, GeneratedLayer τ C.dimension counts v → P v) (target : Unitary) (threshold : Option ℝ) (m : ℤ) :
    Gives base P CompilerResult.sequence (C.compileLayered τ target counts threshold m) :=
  compileWith_gives τ C target threshold m fun _ hs => makeRandomChangeLayered_keeps hP hs

theorem Gives.preT {T : α → Prop} {f : β → ℕ} {m : PyM World α} {k : α → PyM World β} (hm : Keeps base P m)
    (hT : ∀ w a w', m w = (.ok a, w') → T a) (hk : ∀ a, T a → Gives base P f (k a)) : Gives base P f (m >>= k) := by
  intro w hw
  have h1 := hm w hw
  refine Wp.bind ?_
  unfold Wp at h1 ⊢
  rcases hmw : m w with ⟨e | a, w1⟩
  · rw [hmw] at h1; exact ⟨h1, fun _ h => by cases h⟩
  · rw [hmw] at h1
    have h2 := hk a (hT w a w1 hmw) w1 h1.apart
    exact ⟨h1.trans h2.1, h2.2⟩

theorem compilerNew_args {D : ℕ} {ps : List Primitive} {b : Bool} {q : Option (List ℝ)} {x y : ℝ} (w : World) (C : Compiler)
    (w' : World) (h : Compiler.new D ps b q x y w = (.ok C, w')) :
    C.dimension = D ∧ C.primitives = ps ∧ C.probabilities = q := by
  unfold Compiler.new at h
  obtain ⟨_, w1, -, h⟩ := PyM.bind_eq_ok_iff.mp h
  obtain ⟨_, w2, -, h⟩ := PyM.bind_eq_ok_iff.mp h
  obtain ⟨_, w3, -, h⟩ := PyM.bind_eq_ok_iff.mp h
  cases h
  exact ⟨rfl, rfl, rfl⟩

theorem compilerNew_keeps (D : ℕ) (ps : List Primitive) (b : Bool) (q : Option (List ℝ)) (x y : ℝ) :
    Keeps base P (Compiler.new D ps b q x y) := by
  unfold Compiler.new
  exact (Keeps.assert _).bind fun _ => (Keeps.assert _).bind fun _ => (Keeps.allocBeta _).bind fun _ => .pure _

/-! ## combine -/

theorem combineLoop_apart (τ : Arith) (ss : List ℕ) (hss : ∀ s ∈ ss, base ≤ s) (es : List ℕ) (p : Unitary) (w : World)
    (hw : Apart base w) (hes : ListApart w.entries.length es) :
    Wp (Seq.combineLoop τ ss es p) (fun res w' => Keep base P w w' ∧
      ∀ x, res = .ok x → ListApart w'.entries.length x.1) w := by
  induction ss generalizing es p w with
  | nil => exact ⟨Keep.refl hw, fun x h => by cases h; exact hes⟩
  | cons s ss ih =>
    rw [Seq.combineLoop]
    have hb := hss s (by simp)
    have hg : Wp (Seq.getSequenceEntries s) (fun res w' => Keep base P w w' ∧ w'.seqs = w.seqs ∧
        ∀ rs', res = .ok rs' → ListApart w'.entries.length rs' ∧ ∀ r ∈ rs', w.entries.length ≤ r) w := by
      unfold Seq.getSequenceEntries
      exact getSeq_cases ⟨Keep.refl hw, rfl, fun _ h => by cases h⟩ fun o ho => deepcopy_apart (hw.seq s o hb ho).1.1 hw
    refine Wp.bind (hg.mono ?_)
    rintro (e | ns) w1 ⟨k1, h2, h3⟩
    · exact ⟨k1, fun _ h => by cases h⟩
    obtain ⟨h4, h5⟩ := h3 ns rfl
    refine Wp.bind ((Keeps.product (P := P) τ hb w1 k1.apart).mono ?_)
    rintro (e | q) w2 k2
    · exact ⟨k1.trans k2, fun _ h => by cases h⟩
    refine Wp.lift_bind (fun p' _ => ?_) fun e _ => ⟨k1.trans k2, fun _ h => by cases h⟩
    exact (ih (fun x hx => hss x (by simp [hx])) _ p' w2 k2.apart
      ((hes.append h4 k1.ents h5).mono k2.ents)).mono fun _ _ h => ⟨(k1.trans k2).trans h.1, h.2⟩

theorem combine_gives (τ : Arith) {ss : List ℕ} (hss : ∀ s ∈ ss, base ≤ s) : Gives base P id (Seq.combine τ ss) := by
  rcases ss with _ | ⟨s0, ss⟩
  · exact Gives.raise _
  have gd : ∀ s, Keeps base P (Seq.getDimension s) := fun s => (Keeps.getSeq s).bind fun _ => .pure _
  unfold Seq.combine
  refine Gives.pre (gd s0) fun D => Gives.pre (Keeps.forM fun s => (gd s).bind fun _ => .assert _) fun _ =>
    Gives.pre (Keeps.lift _) fun p0 w hw => ?_
  refine Wp.bind ((combineLoop_apart (P := P) τ _ hss [] p0 w hw ⟨by simp, by simp⟩).mono ?_)
  rintro (e | ⟨es, p⟩) w1 ⟨k1, h1⟩
  · exact ⟨k1, fun _ h => by cases h⟩
  refine (Gives.bind (new_gives D false (h1 _ rfl).1) (g := id) (fun t ht => ?_) w1 k1.apart).mono
    fun _ _ h => ⟨k1.trans h.1, h.2⟩
  intro w2 hw2
  refine getSeq_cases ⟨Keep.refl hw2, fun _ h => by cases h⟩ fun o ho => ?_
  exact Wp.setSeq_bind ⟨Keep.setSeq hw2 ht (hw2.seq t o ht ho), fun R h => by cases h; exact ht⟩

/-! ## Verification sequences -/

theorem appendRandomEntries_keeps {τ : Arith} {D : ℕ} {ps : List Primitive} {q : Option (List ℝ)}
    (hP : ∀ v, Generated τ D ps q v → P v) {s : ℕ} (hs : base ≤ s) (n : ℕ) : Keeps base P (Verification.appendRandomEntries τ D ps q s n) := by
  induction n with
  | zero => exact .pure _
  | succ n ih =>
    rw [Verification.appendRandomEntries]
    refine makesOne_append (createRandomSequenceEntry_makes hP) hs fun w e hw he => ?_
    refine Wp.bind ((appendLast_apart (P := P) τ hs hw he true).mono ?_)
    rintro (x | x) w1 h1
    · exact h1.1
    · exact (ih w1 h1.1.apart).mono fun _ _ h => h1.1.trans h

theorem appendRandomLayers_keeps {τ : Arith} {D : ℕ} {counts : List (Primitive × ℤ)}
    (hP : ∀ v, GeneratedLayer τ D counts v → P v) {s : ℕ} (hs : base ≤ s) (n : ℕ) :
    Keeps base P (Verification.appendRandomLayers τ D counts s n) := by
  induction n with
  | zero => exact .pure _
  | succ n ih =>
    rw [Verification.appendRandomLayers]
    refine makes_append (createRandomLayer_makes hP) hs fun w es hw h1 h2 => ?_
    refine Wp.bind ((appendAll_keep (P := P) τ hs es w hw h1 h2).mono ?_)
    rintro (x | x) w1 h1
    · exact h1
    · exact (ih w1 h1.apart).mono fun _ _ h => h1.trans h

theorem checkThreshold_keeps (t : Option ℝ) : Keeps base P (Verification.checkThreshold t) := by
  cases t with
  | none => exact .raise _
  | some t => exact (Keeps.assert _).bind fun _ => .pure _

theorem rav_gives {τ : Arith} {D : ℕ} {ps : List Primitive} {q : Option (List ℝ)} (hP : ∀ v, Generated τ D ps q v → P v)
    (b : Bool) (n : ℤ) (t : Option ℝ) (x : ℝ) (m : ℤ) : Gives base P CompilerResult.sequence (Verification.generateRavSequence τ D ps b n t x q m) := by
  unfold Verification.generateRavSequence
  refine Gives.pre (Keeps.assert _) fun _ => Gives.pre (Keeps.assert _) fun _ => Gives.pre (checkThreshold_keeps t) fun t =>
    Gives.bind (new_gives D false List.nodup_nil) fun s hs => Gives.pre (appendRandomEntries_keeps hP hs _) fun _ => ?_
  split
  · exact .pure hs
  · refine Gives.pre (Keeps.product τ hs) fun p => Gives.pre (Keeps.lift _) fun target =>
      Gives.preT (compilerNew_keeps _ _ _ _ _ _) compilerNew_args fun C hC =>
      Gives.bind (compile_gives (by rw [hC.1, hC.2.1, hC.2.2]; exact hP) _ _ _) fun R hR =>
      Gives.bind (combine_gives τ (ss := [s, R.sequence]) ?_) fun c hc => .pure hc
    intro a ha
    simp only [List.mem_cons, List.not_mem_nil, or_false] at ha
    rcases ha with rfl | rfl
    · exact hs
    · exact hR

theorem layeredRav_gives {τ : Arith} {D : ℕ} {counts : List (Primitive × ℤ)}
    (hP : ∀ v, GeneratedLayer τ D counts v → P v) (n : ℤ) (t : Option ℝ) (x : ℝ) (m : ℤ) :
    Gives base P CompilerResult.sequence (Verification.generateLayeredRavSequence τ D counts n t x m) := by
  unfold Verification.generateLayeredRavSequence
  refine Gives.pre (Keeps.assert _) fun _ => Gives.pre (Keeps.assert _) fun _ => Gives.pre (checkThreshold_keeps t) fun t =>
    Gives.bind (new_gives D false List.nodup_nil) fun s hs => Gives.pre (appendRandomLayers_keeps hP hs _) fun _ => ?_
  split
  · exact .pure hs
  · refine Gives.pre (Keeps.product τ hs) fun p => Gives.pre (Keeps.lift _) fun target =>
      Gives.preT (compilerNew_keeps _ _ _ _ _ _) compilerNew_args fun C hC =>
      Gives.bind (compileLayered_gives (by rw [hC.1]; exact hP) _ _ _) fun R hR =>
      Gives.bind (combine_gives τ (ss := [s, R.sequence]) ?_) fun c hc => .pure hc
    intro a ha
    simp only [List.mem_cons, List.not_mem_nil, or_false] at ha
    rcases ha with rfl | rfl
    · exact hs
    · exact hR

/-! ## Hamiltonians -/

theorem ideal_gives {τ : Arith} {H : Hamiltonian} {t : ℝ} {n : ℤ}
    (hP : ∀ v, EvolveEntry τ H.getQubitCount (fun h t' s => h = H.totalMatrix ∧ t' = t / n ∧ s = "") v → P v) :
    Gives base P id (H.getIdealSequence τ t n) := by
  unfold Hamiltonian.getIdealSequence
  refine Gives.pre (Keeps.lift _) fun _ => Gives.preT (T := fun u => H.getTimeEvolutionOperator τ (t / n) = .ok u)
    (Keeps.lift _) (fun w a w' h => (Prod.mk.inj h).1) fun u hu =>
    makes_new_gives (idealEntries_makes (fun v hv => hP v ?_) _) _ _
  obtain ⟨h1, h2, h3⟩ := entryNew_range hv
  exact ⟨h3, _, _, _, ⟨rfl, rfl, rfl⟩, h2 ▸ hu⟩

theorem trotter_gives {τ : Arith} {H : Hamiltonian} {t : ℝ} {n : ℤ}
    (hP : ∀ v, EvolveEntry τ H.getQubitCount (H.TrotterP (t / n)) v → P v) (b : Bool) :
    Gives base P id (H.getTrotterSequence τ t n b) := by
  unfold Hamiltonian.getTrotterSequence
  exact Gives.pre (Keeps.lift _) fun _ => makes_new_gives (trotterLoop_makes hP b _ _) _ _

theorem qdrift_gives {τ : Arith} {H : Hamiltonian} {t : ℝ} {n : ℤ}
    (hP : ∀ v, EvolveEntry τ H.getQubitCount (H.QdriftP (H.sumCoefficients * t / n)) v → P v) :
    Gives base P id (H.getQdriftSequence τ t n) := by
  unfold Hamiltonian.getQdriftSequence
  exact makes_new_gives (qdriftLoop_makes hP _) _ _

theorem stoqTarget_gives {τ : Arith} {H : Hamiltonian} {x : ℝ} {b : Bool}
    (hP : ∀ ps, H.getUnitaryPrimitives τ x b = .ok ps → ∀ v, Generated τ H.dimension ps none v → P v)
    (target : Unitary) (t : Option ℝ) : Gives base P CompilerResult.sequence (H.compileStoqForTarget τ target x t b) := by
  unfold Hamiltonian.compileStoqForTarget
  exact Gives.preT (T := fun ps => H.getUnitaryPrimitives τ x b = .ok ps) (Keeps.lift _)
    (fun w a w' h => (Prod.mk.inj h).1) fun ps hps => Gives.preT (compilerNew_keeps _ _ _ _ _ _) compilerNew_args
    fun C hC => compile_gives (by rw [hC.1, hC.2.1, hC.2.2]; exact hP ps hps) _ _ _

theorem stoq_gives {τ : Arith} {H : Hamiltonian} {x : ℝ} {b : Bool}
    (hP : ∀ ps, H.getUnitaryPrimitives τ x b = .ok ps → ∀ v, Generated τ H.dimension ps none v → P v)
    (time : ℝ) (t : Option ℝ) : Gives base P CompilerResult.sequence (H.compileStoqSequence τ time x t b) := by
  unfold Hamiltonian.compileStoqSequence
  exact Gives.pre (Keeps.lift _) fun u => stoqTarget_gives hP u t

theorem ravUnitary_quiet (τ : Arith) (ps : List Primitive) (x : ℝ) :
    Quiet (fun u => ∃ p ∈ ps, ∃ pu, p.unitary = .inr pu ∧ pu.asUnitary τ [x] = .ok u) (Hamiltonian.ravUnitary τ ps x) := by
  intro w
  have : Wp (Hamiltonian.ravUnitary τ ps x) (fun res w' => w'.seqs = w.seqs ∧ w'.entries = w.entries ∧
      ∀ u, res = .ok u → ∃ p ∈ ps, ∃ pu, p.unitary = .inr pu ∧ pu.asUnitary τ [x] = .ok u) w := by
    unfold Hamiltonian.ravUnitary
    refine (Quiet.withRng (T := fun _ => True) fun _ _ _ _ => trivial).wp_bind
      (fun e w1 h1 h2 => ⟨h1, h2, fun _ h => by cases h⟩) fun i w1 _ h1 h2 => ?_
    rcases hi : ps[i]? with _ | p
    · exact ⟨h1, h2, fun _ h => by cases h⟩
    · rcases hu : p.unitary with u | pu
      · simp only [hu]; exact ⟨h1, h2, fun _ h => by cases h⟩
      · simp only [hu]; exact ⟨h1, h2, fun u h => ⟨p, List.mem_of_getElem? hi, pu, hu, h⟩⟩
  exact this

theorem hravStep_keeps {τ : Arith} {H : Hamiltonian} {ps : List Primitive}
    (hP : ∀ v, (∃ t, RavGate τ ps H.applyTo t v) → P v) (x : ℝ) {s : ℕ} (hs : base ≤ s) :
    Keeps base P (H.ravStep τ ps x s) := by
  unfold Hamiltonian.ravStep
  refine (Keeps.withRng _).bind fun r => (Keeps.withRng _).bind fun r' => ?_
  intro w hw
  refine (ravUnitary_quiet τ ps _).wp_bind (fun e w1 h1 h2 => Keep.grow hw h1 (by rw [h2]) (valsKept_of_eq h2))
    fun u w0 hu g1 g2 => ?_
  have k0 : Keep base P w w0 := Keep.grow hw g1 (by rw [g2]) (valsKept_of_eq g2)
  obtain ⟨p, hp, pu, hpu, hu⟩ := hu
  refine Wp.bind ((entryNew_makes (P := P) (fun v hv => hP v ?_) w0).mono ?_)
  · obtain ⟨h3, h4⟩ := entryNew_ok hv
    exact ⟨_, p, hp, pu, hpu, h4 ▸ hu, h4 ▸ hv⟩
  rintro (e | e) w1 ⟨h1, h2, hv, h3⟩
  · exact k0.trans (Keep.grow k0.apart h1 h2 hv)
  · have k1 : Keep base P w w1 := k0.trans (Keep.grow k0.apart h1 h2 hv)
    refine Wp.bind ((appendLast_apart (P := P) τ hs k1.apart ⟨(h3 e rfl).2, fun o ho hm => ?_⟩ true).mono ?_)
    · rw [h1] at ho
      have := (k0.apart.seq s o hs ho).1.2 e hm
      have := (h3 e rfl).1
      omega
    · rintro (x | x) w2 k2
      · exact k1.trans k2.1
      · exact Wp.pure (k1.trans k2.1)

theorem hravLoop_keeps {τ : Arith} {H : Hamiltonian} {ps : List Primitive}
    (hP : ∀ v, (∃ t, RavGate τ ps H.applyTo t v) → P v) (x time : ℝ) {s : ℕ} (hs : base ≤ s) (fuel : ℕ)
    (total : ℝ) : Keeps base P (H.ravLoop τ ps x time s fuel total) := by
  induction fuel generalizing total with
  | zero =>
    rw [Hamiltonian.ravLoop]
    split
    · exact .raise _
    · exact .pure _
  | succ n ih =>
    rw [Hamiltonian.ravLoop]
    split
    · exact (hravStep_keeps hP x hs).bind fun t => ih _
    · exact .pure _

theorem hrav_gives {τ : Arith} {H : Hamiltonian} {x : ℝ} {b : Bool}
    (hP : ∀ ps, H.getUnitaryPrimitives τ x b = .ok ps →
      ∀ v, Generated τ H.dimension ps none v ∨ (∃ t, RavGate τ ps H.applyTo t v) → P v)
    (time : ℝ) (t : Option ℝ) (fuel : ℕ) :
    Gives base P CompilerResult.sequence (H.compileRavSequence τ time x t b fuel) := by
  unfold Hamiltonian.compileRavSequence
  refine Gives.preT (T := fun ps => H.getUnitaryPrimitives τ x b = .ok ps) (Keeps.lift _)
    (fun w a w' h => (Prod.mk.inj h).1) fun ps hps => Gives.bind (new_gives _ false List.nodup_nil) fun s hs =>
    Gives.pre (hravLoop_keeps (fun v hv => hP ps hps v (.inr hv)) x time hs fuel 0) fun _ =>
    Gives.pre (Keeps.product τ hs) fun p => Gives.pre (Keeps.lift _) fun target =>
    Gives.bind (stoqTarget_gives (fun ps hps v hv => hP ps hps v (.inl hv)) target t) fun R hR =>
    Gives.bind (combine_gives τ (ss := [s, R.sequence]) ?_) fun c hc => .pure hc
  intro a ha
  simp only [List.mem_cons, List.not_mem_nil, or_false] at ha
  rcases ha with rfl | rfl
  · exact hs
  · exact hR

end Stoq
