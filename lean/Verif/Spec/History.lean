import Verif.Spec.Text

/-!
# Client programs over the sequence API

`Op` is a call of the public API by a client that holds handles to the entry objects and sequences it has
obtained so far (numbered in the order it obtained them).  `Client.step` performs the call on the modelled
objects.  `Plain.step` is the specification: the same call on plain lists of gates, without objects, caches,
copies or stored products.
-/

namespace Stoq

/-- One API call. -/
inductive Op where
  | newEntry (u : Unitary) (qubits : List ℤ)
  | newSeq (dimension : ℕ) (isArray : Bool) (entries : List ℕ)
  | appendFirst (s e : ℕ) (saveUndo : Bool)
  | appendLast (s e : ℕ) (saveUndo : Bool)
  | removeFirst (s : ℕ) (saveUndo : Bool)
  | removeLast (s : ℕ) (saveUndo : Bool)
  | undo (s : ℕ)
  | product (s : ℕ)
  | inverse (s : ℕ)
  | combine (ss : List ℕ)
  | getEntries (s : ℕ)
  | getLength (s : ℕ)
  | fullUnitary (e : ℕ) (dimension : ℕ)
  | text (k : TextKind) (fmt : ℕ → ℝ → String) (s : ℕ)

/-- All elements, or `none` if one is missing. -/
def getAll {α : Type} (table : List α) : List ℕ → Option (List α)
  | [] => some []
  | i :: is =>
    match table[i]?, getAll table is with
    | some a, some as => some (a :: as)
    | _, _ => none

/-! ## The client of the modelled code -/

/-- What the client sees of a result. -/
inductive Client.Obs where
  | unit
  | handle
  | length (n : ℕ)
  | unitary (u : Unitary)
  | entries (l : List EntryVal)
  | text (t : String)

/-- The heap and the client's handles. -/
structure Client where
  world : World
  entries : List ℕ
  seqs : List ℕ

namespace Client

/-- Use a handle; a handle the client does not have is reported as `dangling`. -/
def with_ {α : Type} (h : Option α) (c : Client) (f : α → Except PyErr Obs × Client) :
    Except PyErr Obs × Client :=
  match h with
  | some a => f a
  | none => (.error .dangling, c)

/-- Run code on the heap; on success turn the result into an observation and new handles. -/
def call {α : Type} (c : Client) (m : PyM World α) (obs : α → World → Obs) (newE newS : α → List ℕ) :
    Except PyErr Obs × Client :=
  match m c.world with
  | (.ok a, w) => (.ok (obs a w), ⟨w, c.entries ++ newE a, c.seqs ++ newS a⟩)
  | (.error e, w) => (.error e, { c with world := w })

/-- Perform one call. -/
noncomputable def step (τ : Arith) (c : Client) : Op → Except PyErr Obs × Client
  | .newEntry u qs => c.call (Entry.new u qs) (fun _ _ => .handle) (fun r => [r]) (fun _ => [])
  | .newSeq D arr es => with_ (getAll c.entries es) c fun rs =>
      c.call (Seq.new D arr rs) (fun _ _ => .handle) (fun _ => []) (fun s => [s])
  | .appendFirst s e b => with_ (c.seqs[s]?) c fun s => with_ (c.entries[e]?) c fun e =>
      c.call (Seq.appendFirst τ s e b) (fun _ _ => .unit) (fun _ => []) (fun _ => [])
  | .appendLast s e b => with_ (c.seqs[s]?) c fun s => with_ (c.entries[e]?) c fun e =>
      c.call (Seq.appendLast τ s e b) (fun _ _ => .unit) (fun _ => []) (fun _ => [])
  | .removeFirst s b => with_ (c.seqs[s]?) c fun s =>
      c.call (Seq.removeFirst τ s b) (fun _ _ => .unit) (fun _ => []) (fun _ => [])
  | .removeLast s b => with_ (c.seqs[s]?) c fun s =>
      c.call (Seq.removeLast τ s b) (fun _ _ => .unit) (fun _ => []) (fun _ => [])
  | .undo s => with_ (c.seqs[s]?) c fun s =>
      c.call (Seq.undo s) (fun _ _ => .unit) (fun _ => []) (fun _ => [])
  | .product s => with_ (c.seqs[s]?) c fun s =>
      c.call (Seq.product τ s) (fun u _ => .unitary u) (fun _ => []) (fun _ => [])
  | .inverse s => with_ (c.seqs[s]?) c fun s =>
      c.call (Seq.inverse τ s) (fun _ _ => .handle) (fun _ => []) (fun s' => [s'])
  | .combine ss => with_ (getAll c.seqs ss) c fun ss =>
      c.call (Seq.combine τ ss) (fun _ _ => .handle) (fun _ => []) (fun s' => [s'])
  | .getEntries s => with_ (c.seqs[s]?) c fun s =>
      c.call (Seq.getSequenceEntries s) (fun rs w => .entries (w.vals rs)) (fun rs => rs) (fun _ => [])
  | .getLength s => with_ (c.seqs[s]?) c fun s =>
      c.call (Seq.getLength s) (fun n _ => .length n) (fun _ => []) (fun _ => [])
  | .fullUnitary e D => with_ (c.entries[e]?) c fun e =>
      c.call (Entry.getFullUnitary τ e D) (fun u _ => .unitary u) (fun _ => []) (fun _ => [])
  | .text k fmt s => with_ (c.seqs[s]?) c fun s =>
      c.call (k.call τ fmt s) (fun t _ => .text t) (fun _ => []) (fun _ => [])

/-- Perform calls one after the other; an exception does not stop the client. -/
noncomputable def run (τ : Arith) (c : Client) : List Op → List (Except PyErr Obs) × Client
  | [] => ([], c)
  | op :: ops => ((step τ c op).1 :: (run τ (step τ c op).2 ops).1, (run τ (step τ c op).2 ops).2)

/-- A client with no objects. -/
def start (rng : Rng) : Client := ⟨⟨[], [], [], rng⟩, [], []⟩

/-- Content of the entry object with handle `i`. -/
def entry (c : Client) (i : ℕ) : Option EntryVal :=
  c.entries[i]?.bind fun r => c.world.entries[r]?.map EntryObj.toVal

/-- View of the sequence with handle `i`. -/
def seq (c : Client) (i : ℕ) : Option SeqView := c.seqs[i]?.bind c.world.view

end Client

/-- The sequence handle whose sequence the call may change. -/
def Op.changes : Op → Option ℕ
  | .appendFirst s _ _ => some s
  | .appendLast s _ _ => some s
  | .removeFirst s _ => some s
  | .removeLast s _ => some s
  | .undo s => some s
  | _ => none

/-! ## The specification -/

/-- Result of a call in the specification. -/
inductive Plain.Obs where
  | unit
  | handle
  | length (n : ℕ)
  | op (n : ℕ) (M : Matrix (Fin (2 ^ n)) (Fin (2 ^ n)) ℂ)
  | entries (l : List EntryVal)
  | text (t : String)

/-- The gates and gate lists a client holds. -/
structure Plain where
  entries : List EntryVal
  seqs : List SeqView

namespace Plain

/-- Use a handle. -/
def with_ {α : Type} (h : Option α) (p : Plain) (f : α → Except PyErr Obs × Plain) :
    Except PyErr Obs × Plain :=
  match h with
  | some a => f a
  | none => (.error .dangling, p)

/-- The gate's qubits exist in a system of dimension `D`. -/
def fits (D : ℕ) (e : EntryVal) : Prop := ∀ q ∈ e.applyTo, 2 ^ (q + 1) ≤ D

/-- Change the list of gates of sequence `s` from `v.entries` to `new`, remembering the old one if asked to.
Numpy arrays of gates cannot be changed. -/
def change (p : Plain) (s : ℕ) (v : SeqView) (saveUndo : Bool) (new : List EntryVal) : Except PyErr Obs × Plain :=
  let undo := if saveUndo then some v.entries else v.undo
  if v.isArray then
    (.error .attributeError, { p with seqs := p.seqs.set s { v with undo := undo } })
  else
    (.ok .unit, { p with seqs := p.seqs.set s { v with entries := new, undo := undo } })

open Classical in
/-- The specification of one call. -/
noncomputable def step (p : Plain) : Op → Except PyErr Obs × Plain
  | .newEntry u qs =>
    match EntryVal.new u qs with
    | .ok e => (.ok .handle, { p with entries := p.entries ++ [e] })
    | .error err => (.error err, p)
  | .newSeq D arr es => with_ (getAll p.entries es) p fun vs =>
      if ∀ v ∈ vs, fits D v then (.ok .handle, { p with seqs := p.seqs ++ [⟨D, arr, vs, none⟩] })
      else (.error .assertion, p)
  | .appendFirst s e b => with_ (p.seqs[s]?) p fun v => with_ (p.entries[e]?) p fun g =>
      if fits v.dimension g then p.change s v b (g :: v.entries) else (.error .assertion, p)
  | .appendLast s e b => with_ (p.seqs[s]?) p fun v => with_ (p.entries[e]?) p fun g =>
      if fits v.dimension g then p.change s v b (v.entries ++ [g]) else (.error .assertion, p)
  | .removeFirst s b => with_ (p.seqs[s]?) p fun v =>
      if v.entries = [] then (.ok .unit, p) else p.change s v b v.entries.tail
  | .removeLast s b => with_ (p.seqs[s]?) p fun v =>
      if v.entries = [] then (.ok .unit, p) else p.change s v b v.entries.dropLast
  | .undo s => with_ (p.seqs[s]?) p fun v =>
      match v.undo with
      | none => (.error .assertion, p)
      | some old => (.ok .unit, { p with seqs := p.seqs.set s { v with entries := old, undo := none } })
  | .product s => with_ (p.seqs[s]?) p fun v =>
      (.ok (.op (Nat.log 2 v.dimension) (circuit (Nat.log 2 v.dimension) v.entries)), p)
  | .inverse s => with_ (p.seqs[s]?) p fun v =>
      if v.isArray then (.error .attributeError, p)
      else (.ok .handle,
        { p with seqs := p.seqs ++ [⟨v.dimension, false, (v.entries.map EntryVal.dagger).reverse, none⟩] })
  | .combine ss => with_ (getAll p.seqs ss) p fun vs =>
      match vs with
      | [] => (.error .assertion, p)
      | v :: _ =>
        if ∀ v' ∈ vs, v'.dimension = v.dimension then
          (.ok .handle,
            { p with seqs := p.seqs ++ [⟨v.dimension, false, (vs.map SeqView.entries).flatten, none⟩] })
        else (.error .assertion, p)
  | .getEntries s => with_ (p.seqs[s]?) p fun v =>
      (.ok (.entries v.entries), { p with entries := p.entries ++ v.entries })
  | .getLength s => with_ (p.seqs[s]?) p fun v => (.ok (.length v.entries.length), p)
  | .fullUnitary e D => with_ (p.entries[e]?) p fun g =>
      if fits D g then (.ok (.op (Nat.log 2 D) (g.op (Nat.log 2 D))), p) else (.error .assertion, p)
  | .text k fmt s => with_ (p.seqs[s]?) p fun v => (.ok (.text (k.text fmt v.entries)), p)

/-- Calls one after the other. -/
noncomputable def run (p : Plain) : List Op → List (Except PyErr Obs) × Plain
  | [] => ([], p)
  | op :: ops => ((p.step op).1 :: ((p.step op).2.run ops).1, ((p.step op).2.run ops).2)

end Plain

/-- The client's observation agrees with the specification. -/
def SameObs : Client.Obs → Plain.Obs → Prop
  | .unit, .unit => True
  | .handle, .handle => True
  | .length n, .length m => n = m
  | .unitary u, .op _ M => u.Holds M
  | .entries l, .entries l' => l = l'
  | .text t, .text t' => t = t'
  | _, _ => False

/-- The client's result agrees with the specification, including the exception raised. -/
def SameResult : Except PyErr Client.Obs → Except PyErr Plain.Obs → Prop
  | .ok a, .ok b => SameObs a b
  | .error e, .error e' => e = e'
  | _, _ => False

/-! ## Side conditions of the history theorem -/

/-- Gates are exactly unitary and systems consist of qubits. -/
def Op.OnQubits : Op → Prop
  | .newEntry u _ => ∃ d, u.Exact d
  | .newSeq D _ _ => ∃ n, D = 2 ^ n
  | .fullUnitary _ D => ∃ n, D = 2 ^ n
  | _ => True

/-- `inverse()` is only called on sequences in which no entry object occurs twice (see C18). -/
def Op.NoSharedInverse (c : Client) : Op → Prop
  | .inverse s => ∀ r o, c.seqs[s]? = some r → c.world.seqs[r]? = some o → o.entries.Nodup
  | _ => True

/-- The condition holds at every `inverse()` call of the program. -/
def Client.NoSharedInverse (τ : Arith) (c : Client) : List Op → Prop
  | [] => True
  | op :: ops => op.NoSharedInverse c ∧ Client.NoSharedInverse τ (c.step τ op).2 ops

/-- States reached by programs on qubits in exact arithmetic that do not invert sequences with shared entry
objects. -/
def Client.Reachable (c : Client) : Prop :=
  ∃ rng ops, (∀ op ∈ ops, Op.OnQubits op) ∧ Client.NoSharedInverse 0 (start rng) ops ∧
    c = ((start rng).run 0 ops).2

/-- States reached by any program whatsoever, with any matrix arithmetic. -/
def Client.ReachableAny (τ : Arith) (c : Client) : Prop := ∃ rng ops, c = ((start rng).run τ ops).2

/-- Calls that neither save an undo state of sequence `i` nor undo it. -/
def Op.KeepsUndo (i : ℕ) : Op → Prop
  | .appendFirst s _ b => s = i → b = false
  | .appendLast s _ b => s = i → b = false
  | .removeFirst s b => s = i → b = false
  | .removeLast s b => s = i → b = false
  | .undo s => s ≠ i
  | _ => True

/-- Calls that change sequence `i` with `save_undo=True`. -/
def Op.Saves (i : ℕ) : Op → Prop
  | .appendFirst s _ b => s = i ∧ b = true
  | .appendLast s _ b => s = i ∧ b = true
  | .removeFirst s b => s = i ∧ b = true
  | .removeLast s b => s = i ∧ b = true
  | _ => False

/-- Calls that only look: products, lengths, full unitaries and texts. -/
def Op.looks : Op → Bool
  | .product _ => true
  | .getLength _ => true
  | .fullUnitary _ _ => true
  | .text _ _ _ => true
  | _ => false

end Stoq
