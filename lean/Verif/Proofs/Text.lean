import Verif.Model.Text
import Verif.Spec.Text
import Verif.Proofs.SequenceCombine

/-! Text output reads the entries and touches nothing but caches. -/

namespace Stoq

open World

/-- The lines computed from scratch. -/
noncomputable def freshLines (τ : Arith) (f : Unitary → String) (D : ℕ) : List EntryVal → Except PyErr (List String)
  | [] => .ok []
  | e :: es => do
    let u ← e.fullUnitary τ D
    let rest ← freshLines τ f D es
    .ok (f u :: rest)

theorem textLines_wp {τ : Arith} {f : Unitary → String} {D : ℕ} (rs : List ℕ) (w : World)
    (hw : EntriesOk τ w.entries) (hrs : ∀ r ∈ rs, r < w.entries.length) :
    Wp (Seq.textLines τ f D rs) (fun res w' => res = freshLines τ f D (valsOf w.entries rs) ∧ Caches τ w w') w := by
  induction rs generalizing w with
  | nil =>
    unfold Seq.textLines
    exact Wp.pure ⟨rfl, rfl, .refl _, .refl _, hw⟩
  | cons r rs ih =>
    unfold Seq.textLines
    have hr := List.getElem?_eq_getElem (hrs r (by simp))
    have hrs' : ∀ x ∈ rs, x < w.entries.length := fun x hx => hrs x (by simp [hx])
    refine Wp.bind ((getFullUnitary_wp hw hr D).mono ?_)
    rintro res w1 ⟨hres, x', rfl, hv, hok⟩
    have hc1 : Caches τ w { w with entries := w.entries.set r x' } :=
      ⟨rfl, .set hr hv, .set hr hv, hw.set hok⟩
    rw [valsOf_cons hr]
    unfold freshLines
    rcases res with e | u
    · simp only
      rw [← hres]
      exact ⟨rfl, hc1⟩
    · simp only
      rw [← hres, ok_bind]
      refine Wp.bind ((ih { w with entries := w.entries.set r x' } hc1.ok (by simpa using hrs')).mono ?_)
      rintro res w2 ⟨hres2, hc2⟩
      rw [valsOf_grow hrs' hc1.grow] at hres2
      have hc : Caches τ w w2 :=
        ⟨by rw [hc2.eq], hc1.grow.trans hc2.grow, hc1.nonew.trans hc2.nonew, hc2.ok⟩
      rcases res with e | ls
      · simp only
        rw [← hres2]
        exact ⟨rfl, hc⟩
      · simp only
        rw [← hres2]
        exact Wp.pure ⟨rfl, hc⟩

theorem fullUnitary_fields {τ : Arith} {e : EntryVal} {D : ℕ} {u : Unitary} (h : e.fullUnitary τ D = .ok u) :
    u.operationName = e.unitary.operationName ∧ u.parameterDict = e.unitary.parameterDict ∧
      u.isInverse = false ∧ u.applyTo = e.applyTo := by
  unfold EntryVal.fullUnitary at h
  obtain ⟨-, h⟩ := assertE_bind_eq_ok.mp h
  obtain ⟨_, -, h⟩ := bind_eq_ok.mp h
  obtain ⟨_, -, h⟩ := bind_eq_ok.mp h
  obtain ⟨-, h⟩ := assertE_bind_eq_ok.mp h
  obtain ⟨P, -, h⟩ := bind_eq_ok.mp h
  obtain ⟨-, -, -, -, -, rfl⟩ := Unitary.new_eq_ok.mp h
  exact ⟨rfl, rfl, rfl, rfl⟩

theorem freshLines_eq {τ : Arith} {f : Unitary → String} {D : ℕ} {es : List EntryVal} {g : EntryVal → String}
    (hg : ∀ e ∈ es, ∀ u, e.fullUnitary τ D = .ok u → f u = g e) {ls : List String}
    (h : freshLines τ f D es = .ok ls) : ls = es.map g := by
  induction es generalizing ls with
  | nil => cases h; rfl
  | cons e es ih =>
    unfold freshLines at h
    obtain ⟨u, hu, h⟩ := bind_eq_ok.mp h
    obtain ⟨rest, hr, h⟩ := bind_eq_ok.mp h
    cases h
    rw [List.map_cons, hg e (by simp) u hu, ih (fun x hx => hg x (by simp [hx])) hr]

theorem freshLines_ok {τ : Arith} {f : Unitary → String} {D : ℕ} {es : List EntryVal}
    (h : ∀ e ∈ es, ∃ u, e.fullUnitary τ D = .ok u) : ∃ ls, freshLines τ f D es = .ok ls := by
  induction es with
  | nil => exact ⟨_, rfl⟩
  | cons e es ih =>
    obtain ⟨u, hu⟩ := h e (by simp)
    obtain ⟨ls, hls⟩ := ih fun x hx => h x (by simp [hx])
    unfold freshLines
    rw [hu, ok_bind, hls, ok_bind]
    exact ⟨_, rfl⟩

theorem freshLines_exact {n : ℕ} {f : Unitary → String} {es : List EntryVal}
    (h : ∀ e ∈ es, e.WF ∧ e.Fits n ∧ e.Exact) : ∃ ls, freshLines 0 f (2 ^ n) es = .ok ls := by
  induction es with
  | nil => exact ⟨_, rfl⟩
  | cons e es ih =>
    obtain ⟨h1, h2, h3⟩ := h e (by simp)
    obtain ⟨u, hu, -⟩ := fullUnitary_op h1 h2 h3
    obtain ⟨ls, hls⟩ := ih fun x hx => h x (by simp [hx])
    exact ⟨f u :: ls, by unfold freshLines; rw [hu, ok_bind, hls, ok_bind]⟩

theorem jaqal_eq {fmt : ℕ → ℝ → String} {u : Unitary} (h : u.applyTo ≠ []) :
    u.getJaqal fmt = jaqalLine fmt u.operationName u.parameterDict u.applyTo := by
  have : u.applyTo.length ≠ 0 := fun h' => h (List.length_eq_zero_iff.mp h')
  simp [Unitary.getJaqal, jaqalLine, Unitary.textQubits, h]

theorem qasm_eq {fmt : ℕ → ℝ → String} {u : Unitary} (h : u.applyTo ≠ []) :
    u.getQasm fmt = qasmLine fmt u.operationName u.parameterDict u.applyTo := by
  by_cases hp : u.parameterDict = []
  · simp [Unitary.getQasm, qasmLine, Unitary.textQubits, h, hp]
  · have : 0 < u.parameterDict.length := List.length_pos_iff.mpr hp
    simp [Unitary.getQasm, qasmLine, Unitary.textQubits, h, hp, this]

theorem display_eq {fmt : ℕ → ℝ → String} {u : Unitary} (h : u.applyTo ≠ []) (hi : u.isInverse = false) :
    u.getDisplayName fmt = displayLine fmt u.operationName u.parameterDict u.applyTo := by
  have h1 : 0 < u.applyTo.length := List.length_pos_iff.mpr h
  by_cases hp : u.parameterDict = []
  · simp [Unitary.getDisplayName, displayLine, h1, hp, hi, String.append_assoc]
  · have : 0 < u.parameterDict.length := List.length_pos_iff.mpr hp
    simp [Unitary.getDisplayName, displayLine, h1, hp, this, hi, String.append_assoc]

/-- The method `get_jaqal`, `get_qasm` or `get_display_name` of `Unitary`. -/
noncomputable def TextKind.unitary (k : TextKind) (fmt : ℕ → ℝ → String) (u : Unitary) : String :=
  match k with
  | .jaqal => u.getJaqal fmt
  | .qasm => u.getQasm fmt
  | .display => u.getDisplayName fmt

theorem TextKind.call_eq (k : TextKind) (τ : Arith) (fmt : ℕ → ℝ → String) (s : ℕ) :
    k.call τ fmt s = Seq.textOutput τ k.header (k.unitary fmt) s := by cases k <;> rfl

theorem TextKind.unitary_eq (k : TextKind) (fmt : ℕ → ℝ → String) {u : Unitary} (h : u.applyTo ≠ [])
    (hi : u.isInverse = false) : k.unitary fmt u = k.line fmt ⟨u, u.applyTo⟩ := by
  cases k
  · exact jaqal_eq h
  · exact qasm_eq h
  · exact display_eq h hi

/-- What a text method returns and changes. -/
theorem text_wp {τ : Arith} {w : World} (hw : w.WF τ) {s : ℕ} {o : SeqObj} (ho : w.seqs[s]? = some o) (k : TextKind)
    (fmt : ℕ → ℝ → String) : Wp (k.call τ fmt s) (fun res w' =>
      res = (freshLines τ (k.unitary fmt) o.dimension (valsOf w.entries o.entries)).map
        (fun ls => k.header ++ "\n".intercalate ls) ∧ Caches τ w w') w := by
  rw [k.call_eq]
  unfold Seq.textOutput
  refine Wp.getSeq_bind ho (Wp.bind ((textLines_wp o.entries w hw.entries (hw.seq ho).entries.lt).mono ?_))
  rintro res w' ⟨hres, hca⟩
  rcases res with e | ls
  · simp only; rw [← hres]; exact ⟨rfl, hca⟩
  · simp only; rw [← hres]; exact Wp.pure ⟨rfl, hca⟩

/-- The lines are the specified ones. -/
theorem freshLines_line {τ : Arith} {es : List EntryVal} (h : ∀ e ∈ es, e.WF) (k : TextKind) (fmt : ℕ → ℝ → String) {D : ℕ}
    {ls : List String} (hl : freshLines τ (k.unitary fmt) D es = .ok ls) : ls = es.map (k.line fmt) := by
  refine freshLines_eq (g := k.line fmt) (fun e he u hu => ?_) hl
  obtain ⟨f1, f2, f3, f4⟩ := fullUnitary_fields hu
  rw [k.unitary_eq fmt (by rw [f4]; exact (h e he).nonempty) f3]
  cases k <;> simp [TextKind.line, f1, f2, f4]

end Stoq
