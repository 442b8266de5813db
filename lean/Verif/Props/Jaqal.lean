import Verif.Proofs.JaqalNorm
import Verif.Props.Gates
import Verif.Props.TextSession
import Verif.Props.Verification

/-!
# C74: the JAQAL programs of the paper's experiments mean the generated circuits
-/

namespace Stoq

open Matrix Complex Noise Paper UnitaryDefinitions World

/-- The text of a program as `get_jaqal` writes it; `fmt v` is the text of a number. -/
def Jaqal.text (fmt : ℝ → String) (ss : List Jaqal.Statement) : String :=
  "// JAQAL generated from UnitarySequence.get_jaqal()\n" ++ "\n".intercalate (ss.map (Jaqal.Statement.line fmt))

/-- For two or more qubits and any maximal angle the three primitives can be made and are unitary for all parameter
values; a negative maximal angle is rejected. -/
theorem C74_primitives {n : ℕ} (hn : 2 ≤ n) (m : ℝ) :
    (0 ≤ m → ∃ r z s, qscoutR n m = .ok r ∧ qscoutRz n m = .ok z ∧ qscoutMs n m = .ok s ∧
      r.Valid n ∧ z.Valid n ∧ s.Valid n) ∧
    (m < 0 → qscoutR n m = .error .assertion ∧ qscoutRz n m = .error .assertion ∧
      qscoutMs n m = .error .assertion) := by
  refine ⟨fun hm => ⟨_, _, _, qscoutR_eq hm, qscoutRz_eq hm, qscoutMs_eq hm, OneOf.valid ⟨m, .inl (qscoutR_eq hm)⟩ hn,
    OneOf.valid ⟨m, .inr (.inl (qscoutRz_eq hm))⟩ hn, OneOf.valid ⟨m, .inr (.inr (qscoutMs_eq hm))⟩ hn⟩, qscout_bad⟩

/-- Every gate made from one of the primitives is printed as a statement that means exactly the stored matrix on the
same qubits. -/
theorem C74_gates {n N : ℕ} {q : Primitive} {v : EntryVal}
    (hq : ∃ m, qscoutR n m = .ok q ∨ qscoutRz n m = .ok q ∨ qscoutMs n m = .ok q) (hv : FromPrimitive 0 N q v)
    (fmt : ℕ → ℝ → String) :
    ∃ s : Jaqal.Statement, jaqalLine fmt v.unitary.operationName v.unitary.parameterDict v.applyTo = s.line (fmt 7) ∧
      s.gate = some ⟨v.applyTo, v.unitary.matrix.toMatrix _⟩ ∧ s.qubits = v.applyTo ∧
      v.applyTo.Nodup ∧ ∀ i ∈ v.applyTo, i < n :=
  ⟨statement v, statement_line fmt v, (statement_gate hq hv).1, rfl, (statement_gate hq hv).2⟩

/-- The gates made from the primitives are exactly the following: `R` and `Rz` on each of the `n` qubits and `MS` on each
ordered pair of different qubits, with all axis angles between `-π` and `π` and all rotation angles up to the maximal one. -/
theorem C74_reach {n N : ℕ} {m : ℝ} (hm : 0 ≤ m) {r z s : Primitive} (hr : qscoutR n m = .ok r) (hz : qscoutRz n m = .ok z)
    (hs : qscoutMs n m = .ok s) (st : Jaqal.Statement) :
    ((∃ v, FromPrimitive 0 N r v ∧ statement v = st) ↔
      ∃ i < n, ∃ φ θ : ℝ, |φ| ≤ Real.pi ∧ |θ| ≤ m ∧ st = ⟨"R", [i], [φ, θ]⟩) ∧
    ((∃ v, FromPrimitive 0 N z v ∧ statement v = st) ↔ ∃ i < n, ∃ θ : ℝ, |θ| ≤ m ∧ st = ⟨"Rz", [i], [θ]⟩) ∧
    ((∃ v, FromPrimitive 0 N s v ∧ statement v = st) ↔
      ∃ i < n, ∃ j < n, i ≠ j ∧ ∃ φ θ : ℝ, |φ| ≤ Real.pi ∧ |θ| ≤ m ∧ st = ⟨"MS", [i, j], [φ, θ]⟩) := by
  rw [qscoutR_eq hm, Except.ok.injEq] at hr
  rw [qscoutRz_eq hm, Except.ok.injEq] at hz
  rw [qscoutMs_eq hm, Except.ok.injEq] at hs
  subst hr hz hs
  simp only [abs_le]
  refine ⟨⟨?_, ?_⟩, ⟨?_, ?_⟩, ⟨?_, ?_⟩⟩
  · rintro ⟨⟨u, ap⟩, ⟨⟨values, hlen, hval, hu⟩, hap⟩, rfl⟩
    obtain ⟨φ, θ, rfl⟩ := two_values hlen
    have h1 := hval _ (List.mem_cons_self ..)
    have h2 := hval _ (List.mem_cons_of_mem _ (List.mem_cons_self ..))
    rw [rUnitary_as h1 h2, Except.ok.injEq] at hu
    subst hu
    obtain ⟨i, hi, hl⟩ := list1 hap
    exact ⟨i, hi, φ, θ, h1, h2, by simp only at hl; simp [statement, hl]⟩
  · rintro ⟨i, hi, φ, θ, h1, h2, rfl⟩
    refine ⟨⟨_, [i]⟩, ⟨⟨[φ, θ], rfl, ?_, rUnitary_as h1 h2⟩, mem_connectivity1.mpr ⟨i, hi, rfl⟩⟩, rfl⟩
    simpa [rUnitary] using ⟨h1, h2⟩
  · rintro ⟨⟨u, ap⟩, ⟨⟨values, hlen, hval, hu⟩, hap⟩, rfl⟩
    obtain ⟨θ, rfl⟩ := one_value hlen
    have h1 := hval _ (List.mem_cons_self ..)
    rw [rzUnitary_as h1, Except.ok.injEq] at hu
    subst hu
    obtain ⟨i, hi, hl⟩ := list1 hap
    exact ⟨i, hi, θ, h1, by simp only at hl; simp [statement, hl]⟩
  · rintro ⟨i, hi, θ, h1, rfl⟩
    refine ⟨⟨_, [i]⟩, ⟨⟨[θ], rfl, ?_, rzUnitary_as h1⟩, mem_connectivity1.mpr ⟨i, hi, rfl⟩⟩, rfl⟩
    simpa [rzUnitary] using h1
  · rintro ⟨⟨u, ap⟩, ⟨⟨values, hlen, hval, hu⟩, hap⟩, rfl⟩
    obtain ⟨φ, θ, rfl⟩ := two_values hlen
    have h1 := hval _ (List.mem_cons_self ..)
    have h2 := hval _ (List.mem_cons_of_mem _ (List.mem_cons_self ..))
    rw [msUnitary_as h1 h2, Except.ok.injEq] at hu
    subst hu
    obtain ⟨i, hi, j, hj, hij, hl⟩ := list2 hap
    exact ⟨i, hi, j, hj, hij, φ, θ, h1, h2, by simp only at hl; simp [statement, hl]⟩
  · rintro ⟨i, hi, j, hj, hij, φ, θ, h1, h2, rfl⟩
    refine ⟨⟨_, [i, j]⟩, ⟨⟨[φ, θ], rfl, ?_, msUnitary_as h1 h2⟩, mem_connectivity2.mpr ⟨i, hi, j, hj, hij, rfl⟩⟩, rfl⟩
    simpa [msUnitary] using ⟨h1, h2⟩

/-- In any program: the JAQAL text of a sequence of such gates is a valid program whose meaning is exactly the
matrix `product()` returns. -/
theorem C74_program {c : Client} {Cs : List Compiler} {p : Plain} (h : Mirror c Cs p) {i r : ℕ} {v : SeqView}
    (hr : c.seqs[i]? = some r) (hv : c.seq i = some v) {n : ℕ} (hn : v.dimension = 2 ^ n)
    (hg : ∀ e ∈ v.entries, ∃ q N, (∃ m, qscoutR n m = .ok q ∨ qscoutRz n m = .ok q ∨ qscoutMs n m = .ok q) ∧
      FromPrimitive 0 N q e) (fmt : ℕ → ℝ → String) :
    ∃ ss U u, (Seq.getJaqal 0 fmt r c.world).1 = .ok (Jaqal.text (fmt 7) ss) ∧ ss.length = v.entries.length ∧
      Jaqal.meaning n ss = some U ∧ (c.step 0 (.product i)).1 = .ok (.unitary u) ∧ u.Holds U := by
  obtain ⟨m, u, hm, h1, h2, -⟩ := C59_use h hv
  have hmn : m = n := Nat.pow_right_injective le_rfl (hm.symm.trans hn)
  subst hmn
  have hgate : ∀ e ∈ v.entries, (statement e).gate = some e.gate ∧ e.applyTo.Nodup ∧ ∀ i ∈ e.applyTo, i < m := by
    intro e he
    obtain ⟨q, N, hq, hf⟩ := hg e he
    exact statement_gate hq hf
  refine ⟨v.entries.map statement, circuit m v.entries, u, ?_, by simp, meaning_circuit hgate, h1, h2⟩
  refine (C23_text_mirror h hr hv .jaqal fmt).trans ?_
  show Except.ok _ = Except.ok _
  congr 1
  unfold Jaqal.text TextKind.text
  rw [List.map_map]
  exact congrArg (fun l => "// JAQAL generated from UnitarySequence.get_jaqal()\n" ++ "\n".intercalate l)
    (List.map_congr_left fun e _ => statement_line fmt e)

theorem Mirror.kept {c : Client} {Cs : List Compiler} {p : Plain} (h : Mirror c Cs p) {T : Task} (hT : T.Uses Cs)
    (hQ : T.OnQubits) {s : SRef} {w' : World} (hr : T.run 0 c.world = (.ok s, w')) {v : SeqView}
    (hv : w'.view s = some v) :
    Mirror ⟨w', c.entries, c.seqs ++ [s]⟩ Cs { p with seqs := p.seqs ++ [v] } ∧
      (c.seqs ++ [s])[c.seqs.length]? = some s ∧
      Client.seq ⟨w', c.entries, c.seqs ++ [s]⟩ c.seqs.length = some v := by
  refine ⟨?_, by simp, ?_⟩
  · have := Mirror.taskOk T h hT hQ hr hv
    rwa [Client.task_eq.1 s w' hr] at this
  · unfold Client.seq
    simp [hv]

/-- Whatever happened before, a sequence that `generate_layered_rav_sequence` makes from the primitives (as in the
notebooks) is written as a valid program whose meaning is exactly the matrix `product()` returns.  `c'` is the client
after the call. -/
theorem C74_layered_rav {c : Client} {Cs : List Compiler} {p : Plain} (h : Mirror c Cs p) {n : ℕ} (hn : 2 ≤ n)
    {counts : List (Primitive × ℤ)} (hc : ∀ pc ∈ counts, 0 ≤ pc.2)
    (hprims : ∀ pc ∈ counts, ∃ m, qscoutR n m = .ok pc.1 ∨ qscoutRz n m = .ok pc.1 ∨ qscoutMs n m = .ok pc.1)
    {L : ℤ} {threshold : Option ℝ} {a : ℝ} {m : ℤ} {R : CompilerResult} {w' : World}
    (hR : Verification.generateLayeredRavSequence 0 (2 ^ n) counts L threshold a m c.world = (.ok R, w'))
    (fmt : ℕ → ℝ → String) {c' : Client} (hc' : c' = ⟨w', c.entries, c.seqs ++ [R.sequence]⟩) :
    ∃ v ss U u, c'.seq c.seqs.length = some v ∧
      (Seq.getJaqal 0 fmt R.sequence w').1 = .ok (Jaqal.text (fmt 7) ss) ∧ ss.length = v.entries.length ∧
      Jaqal.meaning n ss = some U ∧ (c'.step 0 (.product c.seqs.length)).1 = .ok (.unitary u) ∧ u.Holds U := by
  subst hc'
  obtain ⟨-, pre, compiled, undo, hv, -, hlay, -⟩ := C43_layered_shape h.rel.1 hc hR
  have hr : (Task.layeredRav (2 ^ n) counts L threshold a m).run 0 c.world = (.ok R.sequence, w') := by
    simp only [Task.run]
    rw [PyM.bind_of_ok hR]; rfl
  obtain ⟨k1, k2, k3⟩ := h.kept (T := .layeredRav (2 ^ n) counts L threshold a m) trivial
    ⟨n, rfl, fun pc hpc => OneOf.valid (hprims pc hpc) hn⟩ hr hv
  obtain ⟨ss, U, u, e1, e2, e3, e4, e5⟩ := C74_program k1 k2 k3 (n := n) rfl (fun e he => by
    rw [← List.flatten_append] at he
    obtain ⟨l, hl, he⟩ := List.mem_flatten.mp he
    obtain ⟨groups, hperm, hgr⟩ := hlay l hl
    obtain ⟨g, hg, heg⟩ := List.mem_flatten.mp (hperm.mem_iff.mp he)
    obtain ⟨pc, hpc, hq⟩ := forall₂_right hgr g hg
    exact ⟨pc.1, _, hprims pc hpc, hq.2 e heg⟩) fmt
  exact ⟨_, ss, U, u, k3, e1, e2, e3, e4, e5⟩

/-- The same for `generate_rav_sequence`. -/
theorem C74_rav {c : Client} {Cs : List Compiler} {p : Plain} (h : Mirror c Cs p) {n : ℕ} (hn : 2 ≤ n)
    {prims : List Primitive} (hne : prims ≠ [])
    (hprims : ∀ q ∈ prims, ∃ m, qscoutR n m = .ok q ∨ qscoutRz n m = .ok q ∨ qscoutMs n m = .ok q)
    {L : ℤ} {threshold : Option ℝ} {a : ℝ} {probs : Option (List ℝ)} {m : ℤ} {R : CompilerResult} {w' : World}
    (hR : Verification.generateRavSequence 0 (2 ^ n) prims false L threshold a probs m c.world = (.ok R, w'))
    (fmt : ℕ → ℝ → String) {c' : Client} (hc' : c' = ⟨w', c.entries, c.seqs ++ [R.sequence]⟩) :
    ∃ v ss U u, c'.seq c.seqs.length = some v ∧
      (Seq.getJaqal 0 fmt R.sequence w').1 = .ok (Jaqal.text (fmt 7) ss) ∧ ss.length = v.entries.length ∧
      Jaqal.meaning n ss = some U ∧ (c'.step 0 (.product c.seqs.length)).1 = .ok (.unitary u) ∧ u.Holds U := by
  subst hc'
  obtain ⟨-, pre, compiled, undo, hv, -, hlay, -⟩ := C42_rav_shape h.rel.1 hR
  have hr : (Task.rav (2 ^ n) prims false L threshold a probs m).run 0 c.world = (.ok R.sequence, w') := by
    simp only [Task.run]
    rw [PyM.bind_of_ok hR]; rfl
  obtain ⟨k1, k2, k3⟩ := h.kept (T := .rav (2 ^ n) prims false L threshold a probs m) trivial
    ⟨n, rfl, fun q hq => OneOf.valid (hprims q hq) hn, hne, rfl⟩ hr hv
  obtain ⟨ss, U, u, e1, e2, e3, e4, e5⟩ := C74_program k1 k2 k3 (n := n) rfl (fun e he => by
    obtain ⟨-, q, hq, hf⟩ := hlay e he
    exact ⟨q, _, hprims q hq, hf⟩) fmt
  exact ⟨_, ss, U, u, k3, e1, e2, e3, e4, e5⟩

/-- Rounding: a program of `N` statements whose numbers are changed by at most `δ` is still valid, and its meaning
changes by at most `5/2 N δ` in the operator norm; the probability of every outcome changes by at most twice that. -/
theorem C74_rounding {n : ℕ} {δ : ℝ} {ss ss' : List Jaqal.Statement} (h : Jaqal.Near δ ss ss')
    {U : Matrix (Fin (2 ^ n)) (Fin (2 ^ n)) ℂ} (hU : Jaqal.meaning n ss = some U) :
    ∃ U', Jaqal.meaning n ss' = some U' ∧ (open scoped Matrix.Norms.L2Operator in ‖U - U'‖) ≤ 5 / 2 * ss.length * δ ∧
      ∀ i j, |‖U i j‖ ^ 2 - ‖U' i j‖ ^ 2| ≤ 5 * ss.length * δ := by
  open scoped Matrix.Norms.L2Operator in
  obtain ⟨U', h1, h2, h3, h4⟩ := Jaqal.near_meaning h hU
  refine ⟨U', h1, by linarith, fun i j => ?_⟩
  have e1 := (entry_le_norm U i j).trans h2
  have e2 := (entry_le_norm U' i j).trans h3
  have e3 := (entry_le_norm (U - U') i j).trans h4
  have e4 := abs_norm_sub_norm_le (U i j) (U' i j)
  rw [Matrix.sub_apply] at e3
  have e5 : ‖U i j‖ ^ 2 - ‖U' i j‖ ^ 2 = (‖U i j‖ - ‖U' i j‖) * (‖U i j‖ + ‖U' i j‖) := by ring
  rw [e5, abs_mul, abs_of_nonneg (by positivity : 0 ≤ ‖U i j‖ + ‖U' i j‖)]
  have e6 : ‖U i j‖ + ‖U' i j‖ ≤ 2 := by linarith
  calc |‖U i j‖ - ‖U' i j‖| * (‖U i j‖ + ‖U' i j‖) ≤ (ss.length * (5 / 2 * δ)) * 2 :=
        mul_le_mul (e4.trans e3) e6 (by positivity) ((norm_nonneg _).trans e3)
    _ = _ := by ring

/-- The lines of the library's own `rx`, `ry` and `rz` mean their matrices. -/
theorem C74_library (θ : ℝ) (q : ℕ) (fmt : ℕ → ℝ → String) :
    (∃ u s, rx 0 θ = .ok u ∧ jaqalLine fmt u.operationName u.parameterDict [q] = Jaqal.Statement.line (fmt 7) s ∧
      s.gate = some ⟨[q], u.matrix.toMatrix 2⟩) ∧
    (∃ u s, ry 0 θ = .ok u ∧ jaqalLine fmt u.operationName u.parameterDict [q] = Jaqal.Statement.line (fmt 7) s ∧
      s.gate = some ⟨[q], u.matrix.toMatrix 2⟩) ∧
    (∃ u s, rz 0 θ = .ok u ∧ jaqalLine fmt u.operationName u.parameterDict [q] = Jaqal.Statement.line (fmt 7) s ∧
      s.gate = some ⟨[q], u.matrix.toMatrix 2⟩) := by
  obtain ⟨u1, a1, a2, -, a3, a4⟩ := C27_rx θ
  obtain ⟨u2, b1, b2, -, b3, b4⟩ := C27_ry θ
  obtain ⟨u3, c1, c2, -, c3, c4⟩ := C27_rz θ
  refine ⟨⟨u1, statement ⟨u1, [q]⟩, a1, statement_line fmt ⟨u1, [q]⟩, ?_⟩,
    ⟨u2, statement ⟨u2, [q]⟩, b1, statement_line fmt ⟨u2, [q]⟩, ?_⟩,
    ⟨u3, statement ⟨u3, [q]⟩, c1, statement_line fmt ⟨u3, [q]⟩, ?_⟩⟩
  · simp [statement, Jaqal.Statement.gate, a3, a4, a2.2.2]; rfl
  · simp [statement, Jaqal.Statement.gate, b3, b4, b2.2.2]; rfl
  · simp [statement, Jaqal.Statement.gate, c3, c4, c2.2.2]; rfl

/-- The line of the library's `rphi(θ, Φ)` has the name of the native gate `R` but the two angles the other way
round: it means `rphi(Φ, θ)`. -/
theorem C74_rphi_swapped (θ φ : ℝ) (q : ℕ) (fmt : ℕ → ℝ → String) :
    ∃ u u' s, rphi 0 θ φ = .ok u ∧ rphi 0 φ θ = .ok u' ∧
      jaqalLine fmt u.operationName u.parameterDict [q] = Jaqal.Statement.line (fmt 7) s ∧
      s.gate = some ⟨[q], u'.matrix.toMatrix 2⟩ := by
  obtain ⟨u, a1, a2, -, a3, a4⟩ := C27_rphi θ φ
  obtain ⟨u', b1, b2, -, b3, b4⟩ := C27_rphi φ θ
  refine ⟨u, u', statement ⟨u, [q]⟩, a1, b1, statement_line fmt ⟨u, [q]⟩, ?_⟩
  simp [statement, Jaqal.Statement.gate, a3, a4, b2.2.2, turn, axis]

/-- For example a half turn about the x axis is printed as no rotation at all. -/
theorem C74_rphi_wrong (q : ℕ) (fmt : ℕ → ℝ → String) :
    ∃ u s, rphi 0 Real.pi 0 = .ok u ∧
      jaqalLine fmt u.operationName u.parameterDict [q] = Jaqal.Statement.line (fmt 7) s ∧
      s.gate = some ⟨[q], 1⟩ ∧ u.Holds ((-I) • Gate.X) := by
  obtain ⟨u, u', s, h1, h2, h3, h4⟩ := C74_rphi_swapped Real.pi 0 q fmt
  refine ⟨u, s, h1, h3, ?_, ?_⟩
  · obtain ⟨v, b1, b2, -⟩ := C27_rphi 0 Real.pi
    rw [h2] at b1; cases b1
    rw [h4, b2.2.2, Gate.rot_zero]; rfl
  · obtain ⟨v, b1, b2, -⟩ := C27_rphi Real.pi 0
    rw [h1] at b1; cases b1
    have : Gate.rot ((Real.cos 0 : ℂ) • Gate.X + (Real.sin 0 : ℂ) • Gate.Y) Real.pi = (-I) • Gate.X := by
      simp [Gate.rot]
    rwa [this] at b2

/-! ## Examples -/

/-- The notebook for two qubits: 3 `R`, 3 `Rz` and one `MS` gate with angles up to `π/10` in each of 10 layers,
threshold 1 and at most 4000 steps.  The call succeeds, and its text is a program with the meaning of the sequence, of
70 or more statements. -/
example (rng : Rng) (fmt : ℕ → ℝ → String) : ∃ r z s R w' v ss U u,
    qscoutR 2 (Real.pi / 10) = .ok r ∧ qscoutRz 2 (Real.pi / 10) = .ok z ∧ qscoutMs 2 (Real.pi / 10) = .ok s ∧
    Verification.generateLayeredRavSequence 0 4 [(r, 3), (z, 3), (s, 1)] 10 (some 1) (1 / 2) 4000
      (Client.start rng).world = (.ok R, w') ∧
    Client.seq ⟨w', [], [R.sequence]⟩ 0 = some v ∧ 70 ≤ ss.length ∧
    (Seq.getJaqal 0 fmt R.sequence w').1 = .ok (Jaqal.text (fmt 7) ss) ∧ Jaqal.meaning 2 ss = some U ∧
    (Client.step 0 ⟨w', [], [R.sequence]⟩ (.product 0)).1 = .ok (.unitary u) ∧ u.Holds U := by
  have hpi : 0 ≤ Real.pi / 10 := by have := Real.pi_pos; positivity
  obtain ⟨r, z, s, h1, h2, h3, v1, v2, v3⟩ := (C74_primitives (n := 2) le_rfl (Real.pi / 10)).1 hpi
  have hval : ∀ pc ∈ [(r, (3 : ℤ)), (z, 3), (s, 1)], pc.1.Valid 2 := by
    intro pc hpc
    simp only [List.mem_cons, List.not_mem_nil, or_false] at hpc
    rcases hpc with rfl | rfl | rfl
    exacts [v1, v2, v3]
  have hone : ∀ pc ∈ [(r, (3 : ℤ)), (z, 3), (s, 1)], ∃ m, qscoutR 2 m = .ok pc.1 ∨ qscoutRz 2 m = .ok pc.1 ∨
      qscoutMs 2 m = .ok pc.1 := by
    intro pc hpc
    simp only [List.mem_cons, List.not_mem_nil, or_false] at hpc
    rcases hpc with rfl | rfl | rfl
    exacts [⟨_, .inl h1⟩, ⟨_, .inr (.inl h2)⟩, ⟨_, .inr (.inr h3)⟩]
  have hpos : ∀ pc ∈ [(r, (3 : ℤ)), (z, 3), (s, 1)], 0 ≤ pc.2 := by
    intro pc hpc
    simp only [List.mem_cons, List.not_mem_nil, or_false] at hpc
    rcases hpc with rfl | rfl | rfl <;> norm_num
  have hM : Mirror (Client.start rng) [] ⟨[], []⟩ := .start rng
  obtain ⟨R, w', hR⟩ := C43_layered_never_raises hM.rel.1 (by simp [Client.start]) (n := 2) hval (by
    intro pc hpc _
    simp only [List.mem_cons, List.not_mem_nil, or_false] at hpc
    rw [qscoutR_eq hpi] at h1; rw [qscoutRz_eq hpi] at h2; rw [qscoutMs_eq hpi] at h3
    cases h1; cases h2; cases h3
    rcases hpc with rfl | rfl | rfl <;> simp [connectivity1, connectivity2, List.range_succ]) (L := 10) (by norm_num)
    (t := 1) ⟨by norm_num, le_rfl⟩ (p := 1 / 2) ⟨by norm_num, by norm_num⟩ 4000
  obtain ⟨v, ss, U, u, e1, e2, e3, e4, e5, e6⟩ := C74_layered_rav hM (n := 2) le_rfl hpos hone hR fmt
    (c' := ⟨w', [], [R.sequence]⟩) rfl
  refine ⟨r, z, s, R, w', v, ss, U, u, h1, h2, h3, hR, e1, ?_, e2, e4, e5, e6⟩
  obtain ⟨-, pre, compiled, undo, k1, k2, -, k3, -⟩ := C43_layered_shape hM.rel.1 hpos hR
  have hv : w'.view R.sequence = some v := by simpa [Client.seq, Client.start] using e1
  rw [k1] at hv
  cases hv
  rw [e3]
  simp only [List.map_cons, List.map_nil, List.sum_cons, List.sum_nil] at k3 ⊢
  have : (0 : ℤ) ≤ compiled.length := by positivity
  have : (70 : ℤ) ≤ ((pre.flatten ++ compiled.flatten).length : ℤ) := by rw [k3]; nlinarith
  exact_mod_cast this

/-- Rounding to seven decimals: one `R` gate. -/
example : ∃ U U' : Matrix (Fin (2 ^ 1)) (Fin (2 ^ 1)) ℂ, Jaqal.meaning 1 [⟨"R", [0], [0, Real.pi / 10]⟩] = some U ∧
    Jaqal.meaning 1 [⟨"R", [0], [0, Real.pi / 10 + 5e-8]⟩] = some U' ∧ |‖U 1 0‖ ^ 2 - ‖U' 1 0‖ ^ 2| ≤ 2.5e-7 := by
  have hU : Jaqal.meaning 1 [⟨"R", [0], [0, Real.pi / 10]⟩] =
      some (1 * Gate.op ⟨[0], turn 0 (Real.pi / 10)⟩ 1) := by
    simp [Jaqal.meaning, Jaqal.Statement.gate]
  have hnear : Jaqal.Near 5e-8 [⟨"R", [0], [0, Real.pi / 10]⟩] [⟨"R", [0], [0, Real.pi / 10 + 5e-8]⟩] := by
    have h1 : |(0 : ℝ) - 0| ≤ 5e-8 := by norm_num
    have h2 : |Real.pi / 10 - (Real.pi / 10 + 5e-8)| ≤ 5e-8 := by
      rw [sub_add_cancel_left, abs_neg, abs_of_nonneg (by norm_num)]
    simp only [Jaqal.Near, List.forall₂_cons, List.forall₂_nil_left_iff, true_and, and_true]
    exact ⟨h1, h2⟩
  obtain ⟨U', h1, -, h2⟩ := C74_rounding hnear hU
  refine ⟨_, U', hU, h1, (h2 1 0).trans ?_⟩
  norm_num

end Stoq
