import Verif.Model.PaperGenerate
import Verif.Proofs.Example
import Verif.Proofs.PaperTries
import Verif.Proofs.RepoTrotterTest
import Verif.Props.Jaqal

/-! # The circuits of the paper's experiments, as a program of a client -/

namespace Stoq

namespace Paper

open Matrix Tests Verification World Compiler

variable {c : Client} {Cs : List Compiler} {p : Plain}

/-- The gates are `k` layers. -/
def Layered (n : ℕ) (counts : List (Primitive × ℤ)) (k : ℕ) (v : SeqView) : Prop :=
  v.dimension = 2 ^ n ∧ ∃ ls : List (List EntryVal), v.entries = ls.flatten ∧ ls.length = k ∧ ∀ l ∈ ls, IsLayer 0 n counts l

/-- The circuit that is drawn, and the walk that undoes it. -/
noncomputable def plan (n : ℕ) (counts : List (Primitive × ℤ)) (layers : ℕ) (t : ℝ) (steps : ℤ) :
    PyM Rng (List EntryVal × List Metropolis.State) :=
  Rav.plan n (Rav.blocks (Metropolis.layer (fun q => createRandomEntryVal 0 (2 ^ n) [q] none) counts) layers)
    ((ravCompiler (2 ^ n) (counts.map (·.1)) false none 0.5 0).layeredProposal 0 counts) 0.1
    (((2 : ℝ) ^ 2 ^ n) ^ 2) (some t) (t = 0 ∨ steps = 0) steps

/-- The hypotheses on the gates. -/
structure Usable (n : ℕ) (counts : List (Primitive × ℤ)) : Prop where
  valid : ∀ pc ∈ counts, pc.1.Valid n
  nonneg : ∀ pc ∈ counts, 0 ≤ pc.2
  placeable : ∀ pc ∈ counts, 0 < pc.2 → pc.1.allowedApplyTo ≠ some []

/-- What a call of `generate_layered_rav_sequence` does. -/
theorem attempt_mirror (h : Mirror c Cs p) {n : ℕ} {counts : List (Primitive × ℤ)} (hu : Usable n counts) (layers : ℕ) {t : ℝ}
    (ht : 0 ≤ t ∧ t ≤ 1) (steps : ℤ) :
    ∃ x c' v k, plan n counts layers t steps c.world.rng = (.ok x, c'.world.rng) ∧
      returned 0 (.layeredRav (2 ^ n) counts layers (some t) 0.5 steps) c = (.ok p.seqs.length, c') ∧
      Mirror c' Cs { p with seqs := p.seqs ++ [v] } ∧ v.entries = x.1 ++ Rav.final x.2 ∧ (layers ≤ k ∧ k ≤ layers + steps.toNat) ∧
      (t = 0 ∨ steps = 0 → k = layers) ∧ Layered n counts k v := by
  obtain ⟨R, w', e⟩ := C43_layered_never_raises h.rel.1 h.rel.2.exact hu.valid hu.placeable (L := layers) (by positivity) ht
    (p := 0.5) (by norm_num) steps
  have hf := C43_layered_is_plan h.rel.1 h.rel.2.exact hu.valid (L := layers) (by positivity) ht 0.5 steps
  obtain ⟨-, pre, compiled, undo, hv, hl, hlay, -, hcs, h0⟩ := C43_layered_shape h.rel.1 hu.nonneg e
  rw [e, Int.toNat_natCast] at hf
  unfold FollowsPlan at hf
  rcases hx : plan n counts layers t steps c.world.rng with ⟨e' | x, r⟩
  · rw [show Rav.plan n _ _ _ _ _ _ _ c.world.rng = (.error e', r) from hx] at hf
    cases hf.1
  rw [show Rav.plan n _ _ _ _ _ _ _ c.world.rng = (.ok x, r) from hx] at hf
  obtain ⟨hr, R', eR, -, ⟨undo', hv'⟩, -⟩ := hf
  cases eR
  have hrun : (Task.layeredRav (2 ^ n) counts layers (some t) 0.5 steps).run 0 c.world = (.ok R.sequence, w') := by
    simp only [Task.run]
    rw [PyM.bind_of_ok e]; rfl
  obtain ⟨c', e1, e2, e3⟩ := returned_mirror h (T := .layeredRav (2 ^ n) counts layers (some t) 0.5 steps) trivial
    ⟨n, rfl, hu.valid⟩ hrun hv
  simp only at hv'
  rw [hv] at hv'
  have hv'' := Option.some.inj hv'
  refine ⟨x, c', _, (pre ++ compiled).length, by rw [e3, ← hr], e1, e2, ?_, ?_, ?_, rfl, pre ++ compiled, ?_, rfl, ?_⟩
  · exact congrArg SeqView.entries hv''
  · rw [List.length_append]; omega
  · intro h
    rw [(h0 (h.imp (by rintro rfl; rfl) id)).1]
    simp only [List.append_nil]
    omega
  · simp
  · rw [show intLog2 (2 ^ n) = n from log2_pow n] at hlay
    exact hlay

theorem circuit_unitary (h : Mirror c Cs p) {n s : ℕ} {v : SeqView} (hs : p.seqs[s]? = some v) (hd : v.dimension = 2 ^ n) :
    circuit n v.entries ∈ unitaryGroup (Fin (2 ^ n)) ℂ :=
  (mem_specialUnitaryGroup_iff.mp (circuit_mem_su (h.rel.2.good hs hd))).1

/-- The cost of a circuit. -/
theorem finalCost_mirror (h : Mirror c Cs p) {n s : ℕ} {v : SeqView} (hs : p.seqs[s]? = some v) (hd : v.dimension = 2 ^ n) :
    ∃ c', finalCost 0 n s c = (.ok (1 - overlap 1 (circuit n v.entries)), c') ∧ Mirror c' Cs p ∧
      c'.world.rng = c.world.rng := by
  have hpos : 0 < 2 ^ n := Nat.two_pow_pos n
  have hstep : (p.step (.product s)).1 = .ok (.op n (circuit n v.entries)) := by
    simp only [Plain.step, Plain.with_, hs]
    rw [hd, log2_pow]
  have hstep' : (p.step (.product s)).2 = p := by simp [Plain.step, Plain.with_, hs]
  obtain ⟨u, hu1, hu2⟩ := h.rel.2.product hs hd
  have hex : u.Exact (2 ^ n) := ⟨hpos, hu2.1, hu2.2.1, by rw [hu2.2.2]; exact circuit_mem_su (h.rel.2.good hs hd)⟩
  have hM := Mirror.op (.product s) h trivial trivial
  have hF := step_frame h.rel.1.ok.1 (.product s)
  rw [hstep'] at hM
  have e1 : product 0 s c = (.ok u, (c.step 0 (.product s)).2) := by
    unfold product perform
    rcases hx : c.step 0 (.product s) with ⟨e | obs, c'⟩
    · rw [hx] at hu1; cases hu1
    · rw [hx] at hu1; cases hu1; rfl
  obtain ⟨c2, e2, h2, -, r2⟩ := Example.perform_mirror (α := ℕ) hM (op := .getLength s) trivial trivial
    (f := fun | .length n => some n | _ => none) (o := .length v.entries.length) (a := v.entries.length)
    (by simp [Plain.step, Plain.with_, hs]) (fun obs ho => by cases obs <;> simp_all [SameObs])
  have hp' : (p.step (.getLength s)).2 = p := by simp [Plain.step, Plain.with_, hs]
  rw [hp'] at h2
  have hid := Unitary.identity_eq hpos
  set one : Unitary := { matrix := Arr.identity (2 ^ n), operationName := "I", parameterDict := [], isInverse := false, applyTo := [] }
  have hone : one.Exact (2 ^ n) := ⟨hpos, rfl, rfl, by rw [Arr.toMatrix_identity]; exact one_mem _⟩
  have hdist : u.distanceFrom 0 one = .ok (1 - overlap 1 (circuit n v.entries)) := by
    rw [Unitary.distanceFrom_eq hex hone, hu2.2.2, show one.matrix = Arr.identity (2 ^ n) from rfl, Arr.toMatrix_identity,
      overlap_comm]
  refine ⟨c2, ?_, h2, r2.trans hF.rng⟩
  unfold finalCost
  rw [PyM.bind_of_ok e1, hid]
  rw [PyM.bind_of_ok (show (PyM.lift (Except.ok one) : PyM Client Unitary) _ = (.ok one, _) from rfl)]
  rw [hdist]
  rw [PyM.bind_of_ok (show (PyM.lift (Except.ok _) : PyM Client ℝ) (c.step 0 (.product s)).2 = (.ok _, _) from rfl)]
  exact PyM.bind_of_ok e2

/-- The text of a circuit. -/
theorem file_mirror (h : Mirror c Cs p) {n s : ℕ} {v : SeqView} (hs : p.seqs[s]? = some v) (fmt : ℕ → ℝ → String) :
    ∃ c', file 0 fmt n s c = (.ok ("\n    from qscout.v1.std usepulses *\n    register q[" ++ toString n ++
        "]\n    prepare_all\n    " ++ TextKind.text .jaqal fmt v.entries ++ "\n    measure_all\n    "), c') ∧
      Mirror c' Cs p ∧ c'.world.rng = c.world.rng := by
  obtain ⟨c2, e2, h2, -, r2⟩ := Example.perform_mirror (α := String) h (op := .text .jaqal fmt s) trivial trivial
    (f := fun | .text t => some t | _ => none) (o := .text (TextKind.text .jaqal fmt v.entries))
    (a := TextKind.text .jaqal fmt v.entries)
    (by simp [Plain.step, Plain.with_, hs]) (fun obs ho => by cases obs <;> simp_all [SameObs])
  have hp' : (p.step (.text .jaqal fmt s)).2 = p := by simp [Plain.step, Plain.with_, hs]
  rw [hp'] at h2
  exact ⟨c2, PyM.bind_of_ok e2, h2, r2⟩

/-- The whole circuit returns to the start. -/
def Returns (n : ℕ) (bound : ℝ) (x : List EntryVal × List Metropolis.State) : Prop :=
  1 - overlap 1 (circuit n (x.1 ++ Rav.final x.2)) ≤ bound

/-- The `while` loop. -/
theorem ravCircuit_mirror {n : ℕ} {counts : List (Primitive × ℤ)} (hu : Usable n counts) (layers : ℕ) (steps : ℤ) (bound : ℝ)
    (tries : ℕ) {c : Client} {p : Plain} (h : Mirror c Cs p) :
    ∃ x r, Rng.tries (plan n counts layers 1 steps) (Returns n bound) tries c.world.rng = (.ok x, r) ∧
      (x = none → (ravCircuit 0 n counts layers steps bound tries c).1 = .error .outOfFuel) ∧
      (∀ y, x = some y → ∃ s c' p' v k, ravCircuit 0 n counts layers steps bound tries c = (.ok s, c') ∧ Mirror c' Cs p' ∧
        c'.world.rng = r ∧ p.seqs <+: p'.seqs ∧ p.seqs.length ≤ s ∧ v.entries = y.1 ++ Rav.final y.2 ∧ p'.seqs[s]? = some v ∧ (layers ≤ k ∧ k ≤ layers + steps.toNat) ∧ Layered n counts k v ∧
        1 - overlap 1 (circuit n v.entries) ≤ bound) := by
  classical
  induction tries generalizing c p with
  | zero => exact ⟨none, c.world.rng, rfl, fun _ => rfl, fun y h => by (cases h)⟩
  | succ tries ih =>
    obtain ⟨x, c1, v, k, e1, e2, h1, hv, hk, -, hlay⟩ := attempt_mirror h hu layers (t := 1) (by norm_num) steps
    obtain ⟨c2, e3, h2, r2⟩ := finalCost_mirror h1 (s := p.seqs.length) (v := v) (by simp) hlay.1
    rw [Rng.tries, ravCircuit, PyM.bind_of_ok e1, PyM.bind_of_ok e2, PyM.bind_of_ok e3]
    by_cases hg : Returns n bound x
    · have hg' : 1 - overlap 1 (circuit n v.entries) ≤ bound := by rw [hv]; exact hg
      rw [if_pos hg, if_neg (not_lt.mpr hg')]
      exact ⟨some x, _, rfl, fun h => by (cases h), fun y hy => ⟨p.seqs.length, c2, _, v, k, rfl, h2, r2, List.prefix_append _ _,
        le_rfl, by rw [hv, Option.some.inj hy], by simp, hk, hlay, hg'⟩⟩
    · have hg' : ¬ 1 - overlap 1 (circuit n v.entries) ≤ bound := by rw [hv]; exact hg
      rw [if_neg hg, if_pos (not_le.mp hg')]
      obtain ⟨y, r, f1, f2, f3⟩ := ih h2
      rw [r2] at f1
      refine ⟨y, r, f1, f2, fun z hz => ?_⟩
      obtain ⟨s, c', p', v', k', g1, g2, g3, g4, g5, g6⟩ := f3 z hz
      refine ⟨s, c', p', v', k', g1, g2, g3, (List.prefix_append _ _).trans g4, ?_, g6⟩
      rw [List.length_append] at g5
      omega

/-- The file of a circuit. -/
noncomputable def fileText (fmt : ℕ → ℝ → String) (n : ℕ) (v : SeqView) : String :=
  "\n    from qscout.v1.std usepulses *\n    register q[" ++ toString n ++ "]\n    prepare_all\n    " ++
    TextKind.text .jaqal fmt v.entries ++ "\n    measure_all\n    "

/-- The client has a circuit that returns, and its file. -/
def Good (fmt : ℕ → ℝ → String) (n : ℕ) (counts : List (Primitive × ℤ)) (layers : ℕ) (steps : ℤ) (bound : ℝ) (p : Plain)
    (a : ℕ × String) : Prop :=
  ∃ v k, p.seqs[a.1]? = some v ∧ (layers ≤ k ∧ k ≤ layers + steps.toNat) ∧ Layered n counts k v ∧
    1 - overlap 1 (circuit n v.entries) ≤ bound ∧ a.2 = fileText fmt n v

theorem prefix_get {α : Type} {l l' : List α} (h : l <+: l') {i : ℕ} {a : α} (ha : l[i]? = some a) : l'[i]? = some a := by
  obtain ⟨t, rfl⟩ := h
  rw [List.getElem?_append_left (List.getElem?_eq_some_iff.mp ha).1]
  exact ha

/-- Cell 5. -/
theorem ravCircuits_mirror {n : ℕ} {counts : List (Primitive × ℤ)} (hu : Usable n counts) (fmt : ℕ → ℝ → String) (layers : ℕ)
    (steps : ℤ) (bound : ℝ) (tries count : ℕ) {c : Client} {p : Plain} (h : Mirror c Cs p) :
    ∃ x r, Rng.triesList (plan n counts layers 1 steps) (Returns n bound) tries count c.world.rng = (.ok x, r) ∧
      (x = none → (ravCircuits 0 fmt n counts layers steps bound tries count c).1 = .error .outOfFuel) ∧
      (∀ ys, x = some ys → ∃ res c' p', ravCircuits 0 fmt n counts layers steps bound tries count c = (.ok res, c') ∧
        Mirror c' Cs p' ∧ c'.world.rng = r ∧ p.seqs <+: p'.seqs ∧ res.length = count ∧
        (∀ a ∈ res, p.seqs.length ≤ a.1 ∧ Good fmt n counts layers steps bound p' a) ∧
        (res.map Prod.fst).Pairwise (· < ·) ∧
        List.Forall₂ (fun a y => ∃ v, p'.seqs[a.1]? = some v ∧ v.entries = y.1 ++ Rav.final y.2) res ys) := by
  induction count generalizing c p with
  | zero => exact ⟨some [], c.world.rng, rfl, fun h => by (cases h), fun ys hys => by
      cases hys
      exact ⟨[], c, p, rfl, h, rfl, List.prefix_refl _, rfl, by simp, by simp, .nil⟩⟩
  | succ count ih =>
    obtain ⟨x, r, e1, f1, f2⟩ := ravCircuit_mirror hu layers steps bound tries h
    rw [Rng.triesList, ravCircuits, PyM.bind_of_ok e1]
    cases x with
    | none =>
      refine ⟨none, r, rfl, fun _ => ?_, fun _ h => by (cases h)⟩
      have := f1 rfl
      rcases hx : ravCircuit 0 n counts layers steps bound tries c with ⟨e | s, c'⟩
      · rw [hx] at this; cases this
        rw [PyM.bind_of_error hx]
      · rw [hx] at this; cases this
    | some x =>
      obtain ⟨s, c1, p1, v, k, e2, h1, r1, g1, q1, q2, g2, g3, g4, g5⟩ := f2 x rfl
      obtain ⟨c2, e3, h2, r2⟩ := file_mirror h1 g2 (n := n) fmt
      rw [PyM.bind_of_ok e2, PyM.bind_of_ok e3]
      obtain ⟨y, r', e4, f3, f4⟩ := ih h2
      rw [r2, r1] at e4
      cases y with
      | none =>
        refine ⟨none, r', ?_, fun _ => ?_, fun _ h => by (cases h)⟩
        · show (Rng.triesList _ _ tries count >>= _) r = _
          rw [PyM.bind_of_ok e4]; rfl
        · have := f3 rfl
          rcases hx : ravCircuits 0 fmt n counts layers steps bound tries count c2 with ⟨e | s, c'⟩
          · rw [hx] at this; cases this
            rw [PyM.bind_of_error hx]
          · rw [hx] at this; cases this
      | some y =>
        obtain ⟨res, c3, p3, e5, h3, r3, k1, k2, k3, k4, k5⟩ := f4 y rfl
        have hs : s < p1.seqs.length := (List.getElem?_eq_some_iff.mp g2).1
        refine ⟨some (x :: y), r', ?_, fun h => by (cases h), fun ys hys => by
          cases hys
          refine ⟨_, c3, p3, by rw [PyM.bind_of_ok e5]; rfl, h3, r3, g1.trans k1, by simp [k2], fun a ha => ?_, ?_, ?_⟩
          · rcases List.mem_cons.mp ha with rfl | ha
            · exact ⟨q1, v, k, prefix_get k1 g2, g3, g4, g5, rfl⟩
            · exact ⟨g1.length_le.trans (k3 a ha).1, (k3 a ha).2⟩
          · rw [List.map_cons, List.pairwise_cons]
            refine ⟨fun i hi => ?_, k4⟩
            obtain ⟨a, ha, rfl⟩ := List.mem_map.mp hi
            exact hs.trans_le (k3 a ha).1
          · exact .cons ⟨v, prefix_get k1 g2, q2⟩ k5⟩
        · show (Rng.triesList _ _ tries count >>= _) r = _
          rw [PyM.bind_of_ok e4]; rfl

theorem layered_length {n k : ℕ} {counts : List (Primitive × ℤ)} (hc : ∀ pc ∈ counts, 0 ≤ pc.2) {v : SeqView}
    (h : Layered n counts k v) : (v.entries.length : ℤ) = k * (counts.map Prod.snd).sum := by
  obtain ⟨-, ls, h1, h2, h3⟩ := h
  rw [h1, Stoq.layered_length hc h3, h2]

theorem xebLayerCount_eq {n k : ℕ} {counts : List (Primitive × ℤ)} (hc : ∀ pc ∈ counts, 0 ≤ pc.2)
    (h0 : (counts.map Prod.snd).sum ≠ 0) {v : SeqView} (h : Layered n counts k v) :
    xebLayerCount counts v.entries.length = .ok k := by
  unfold xebLayerCount
  simp only [if_neg h0, layered_length hc h]
  rw [Int.mul_fdiv_cancel _ h0]

/-- The draws of the random circuits with these numbers of layers. -/
noncomputable def randoms (n : ℕ) (counts : List (Primitive × ℤ)) : List ℕ → PyM Rng (List (List EntryVal))
  | [] => pure []
  | k :: ks => do
    let g ← Rav.blocks (Metropolis.layer (fun q => createRandomEntryVal 0 (2 ^ n) [q] none) counts) k
    let gs ← randoms n counts ks
    return g :: gs

theorem plan_skip {n k : ℕ} {counts : List (Primitive × ℤ)} {x : List EntryVal × List Metropolis.State} {r r' : Rng}
    (h : plan n counts k 0 0 r = (.ok x, r')) :
    Rav.blocks (Metropolis.layer (fun q => createRandomEntryVal 0 (2 ^ n) [q] none) counts) k r = (.ok x.1, r') ∧
      Rav.final x.2 = [] := by
  unfold plan Rav.plan at h
  rw [PyM.bind_eq_ok_iff] at h
  obtain ⟨pre, r1, h1, h2⟩ := h
  rw [if_pos (.inl rfl)] at h2
  cases h2
  exact ⟨h1, rfl⟩

/-- Cell 11. -/
theorem xebCircuits_mirror {n : ℕ} {counts : List (Primitive × ℤ)} (hu : Usable n counts) (h0 : (counts.map Prod.snd).sum ≠ 0)
    (fmt : ℕ → ℝ → String) {rav : List (ℕ × String)} {c : Client} {p : Plain} (h : Mirror c Cs p)
    (hrav : ∀ a ∈ rav, ∃ v k, p.seqs[a.1]? = some v ∧ Layered n counts k v) :
    ∃ res c' p', xebCircuits 0 fmt n counts rav c = (.ok res, c') ∧ Mirror c' Cs p' ∧ p.seqs <+: p'.seqs ∧
      List.Forall₂ (fun a b => ∀ v k, p.seqs[a.1]? = some v → Layered n counts k v →
        ∃ v', p'.seqs[b.1]? = some v' ∧ Layered n counts k v' ∧ b.2 = fileText fmt n v') rav res ∧
      (∀ b ∈ res, p.seqs.length ≤ b.1) ∧ (res.map Prod.fst).Pairwise (· < ·) ∧
      ∀ ks : List ℕ, List.Forall₂ (fun a k => ∃ v, p.seqs[a.1]? = some v ∧ Layered n counts k v) rav ks →
        ∃ gs, randoms n counts ks c.world.rng = (.ok gs, c'.world.rng) ∧
          List.Forall₂ (fun b g => ∃ v, p'.seqs[b.1]? = some v ∧ v.entries = g) res gs := by
  induction rav generalizing c p with
  | nil => exact ⟨[], c, p, rfl, h, List.prefix_refl _, .nil, by simp, by simp, fun ks hks => by
      cases hks
      exact ⟨[], rfl, .nil⟩⟩
  | cons a rav ih =>
    obtain ⟨v, k, hv, hk⟩ := hrav a List.mem_cons_self
    obtain ⟨c1, e1, h1, -, r1⟩ := Example.perform_mirror (α := ℕ) h (op := .getLength a.1) trivial trivial
      (f := fun | .length n => some n | _ => none) (o := .length v.entries.length) (a := v.entries.length)
      (by simp [Plain.step, Plain.with_, hv]) (fun obs ho => by cases obs <;> simp_all [SameObs])
    have hp' : (p.step (.getLength a.1)).2 = p := by simp [Plain.step, Plain.with_, hv]
    rw [hp'] at h1
    obtain ⟨x, c2, v2, k2, e0, e2, h2, hx, -, g1, g2⟩ := attempt_mirror h1 hu k (t := 0) (by norm_num) 0
    obtain rfl := g1 (.inl rfl)
    obtain ⟨c3, e3, h3, r3⟩ := finalCost_mirror h2 (s := p.seqs.length) (v := v2) (by simp) g2.1
    obtain ⟨c4, e4, h4, r4⟩ := file_mirror h3 (s := p.seqs.length) (v := v2) (by simp) (n := n) fmt
    obtain ⟨res, c5, p5, e5, h5, k1, k3, k4, k5, k6⟩ := ih h4 (fun b hb => by
      obtain ⟨v', k', hv', hk'⟩ := hrav b (List.mem_cons_of_mem _ hb)
      exact ⟨v', k', prefix_get (List.prefix_append _ _) hv', hk'⟩)
    have huniq : ∀ k', Layered n counts k' v → k' = k2 := by
      intro k' hk'
      have : (k' : ℤ) = k2 := by
        have x1 := layered_length hu.nonneg hk
        have x2 := layered_length hu.nonneg hk'
        rw [x1] at x2
        exact (Int.eq_of_mul_eq_mul_right h0 x2).symm
      exact Int.natCast_inj.mp this
    refine ⟨(p.seqs.length, fileText fmt n v2) :: res, c5, p5, ?_, h5, (List.prefix_append _ _).trans k1, .cons ?_ ?_,
      fun b hb => ?_, ?_, fun ks hks => ?_⟩
    · rw [xebCircuits]
      refine (PyM.bind_of_ok (show length 0 a.1 c = (.ok v.entries.length, c1) from e1)).trans ?_
      rw [xebLayerCount_eq hu.nonneg h0 hk]
      rw [PyM.bind_of_ok (show (PyM.lift (Except.ok (k2 : ℤ)) : PyM Client ℤ) c1 = (.ok _, _) from rfl)]
      rw [PyM.bind_of_ok e2, PyM.bind_of_ok e3, PyM.bind_of_ok e4, PyM.bind_of_ok e5]
      rfl
    · intro v' k' hv' hk'
      rw [hv] at hv'
      cases hv'
      rw [huniq k' hk']
      exact ⟨v2, prefix_get k1 (by simp), g2, rfl⟩
    · refine k3.imp fun b b' hb v' k' hv' hk' => ?_
      exact hb v' k' (prefix_get (List.prefix_append _ _) hv') hk'
    · rcases List.mem_cons.mp hb with rfl | hb
      · exact le_rfl
      · have := k4 b hb
        simp only [List.length_append] at this
        omega
    · rw [List.map_cons, List.pairwise_cons]
      refine ⟨fun i hi => ?_, k5⟩
      obtain ⟨b, hb, rfl⟩ := List.mem_map.mp hi
      have := k4 b hb
      simp only [List.length_append, List.length_singleton] at this
      exact Nat.lt_of_succ_le this
    · rcases hks with _ | ⟨⟨v', hv', hk'⟩, hks⟩
      rw [hv] at hv'
      cases hv'
      obtain rfl := huniq _ hk'
      obtain ⟨gs, f1, f2⟩ := k6 _ (hks.imp fun b k' hb => by
        obtain ⟨v', hv', hk'⟩ := hb
        exact ⟨v', prefix_get (List.prefix_append _ _) hv', hk'⟩)
      obtain ⟨y1, y2⟩ := plan_skip e0
      refine ⟨x.1 :: gs, ?_, .cons ⟨v2, prefix_get k1 (by simp), by rw [hx, y2, List.append_nil]⟩ f2⟩
      rw [r1] at y1
      rw [randoms, PyM.bind_of_ok y1]
      rw [r4, r3] at f1
      rw [PyM.bind_of_ok f1]
      rfl

end Paper

end Stoq
