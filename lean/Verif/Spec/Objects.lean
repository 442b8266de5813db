import Verif.Spec.History

/-!
# Client programs over gate objects

`Objects.step` specifies every call of the sequence API, without the restriction to programs that do not invert a
sequence in which an entry object occurs twice.  A gate is an object: a number that tells which object it is, and its
content.  Copies are new objects; objects that are the same before copying a list are the same afterwards.  Objects never
change.  There are no caches and no stored products.
-/

namespace Stoq

/-- A gate object: which object it is, and its content. -/
abbrev Tagged := ℕ × EntryVal

/-- A sequence of gate objects.  The gates whose product `product()` returns are `word`. -/
structure ObjSeq where
  dimension : ℕ
  isArray : Bool
  entries : List Tagged
  word : List EntryVal
  undo : Option (List Tagged × List EntryVal)

/-- What the client sees of a sequence. -/
def ObjSeq.view (v : ObjSeq) : SeqView :=
  ⟨v.dimension, v.isArray, v.entries.map Prod.snd, v.undo.map fun u => u.1.map Prod.snd⟩

/-- The gates and sequences a client holds; all numbers of objects are less than `next`. -/
structure Objects where
  next : ℕ
  entries : List Tagged
  seqs : List ObjSeq

/-- Copies of a list of objects with the numbers moved by `k`. -/
def copies (k : ℕ) (l : List Tagged) : List Tagged := l.map fun e => (e.1 + k, e.2)

/-- Copies of the gates of several sequences, one sequence after the other. -/
def copyAll (next : ℕ) : ℕ → List ObjSeq → List Tagged
  | _, [] => []
  | k, v :: vs => copies k v.entries ++ copyAll next (k + next) vs

/-- How often the object occurs in the list. -/
def occurrences (l : List Tagged) (i : ℕ) : ℕ := (l.map Prod.fst).count i

/-- Every object is inverted once for each of its occurrences. -/
def invertEach (l : List Tagged) : List Tagged :=
  l.map fun e => (e.1, if occurrences l e.1 % 2 = 1 then e.2.dagger else e.2)

namespace Objects

/-- Use a handle. -/
def with_ {α : Type} (h : Option α) (x : Objects) (f : α → Except PyErr Plain.Obs × Objects) :
    Except PyErr Plain.Obs × Objects :=
  match h with
  | some a => f a
  | none => (.error .dangling, x)

/-- Change the gates of sequence `s`, remembering copies of the old ones if asked to. -/
def change (x : Objects) (s : ℕ) (v : ObjSeq) (saveUndo : Bool) (new : List Tagged) (word : List EntryVal) :
    Except PyErr Plain.Obs × Objects :=
  let undo := if saveUndo then some (copies x.next v.entries, v.word) else v.undo
  let next := if saveUndo then x.next + x.next else x.next
  if v.isArray then
    (.error .attributeError, { x with next := next, seqs := x.seqs.set s { v with undo := undo } })
  else
    (.ok .unit, { x with next := next, seqs := x.seqs.set s { v with entries := new, word := word, undo := undo } })

open Classical in
/-- The specification of one call. -/
noncomputable def step (x : Objects) : Op → Except PyErr Plain.Obs × Objects
  | .newEntry u qs =>
    match EntryVal.new u qs with
    | .ok e => (.ok .handle, { x with next := x.next + 1, entries := x.entries ++ [(x.next, e)] })
    | .error err => (.error err, x)
  | .newSeq D arr es => with_ (getAll x.entries es) x fun vs =>
      if ∀ v ∈ vs, Plain.fits D v.2 then
        (.ok .handle, { x with next := x.next + x.next,
                               seqs := x.seqs ++ [⟨D, arr, copies x.next vs, vs.map Prod.snd, none⟩] })
      else (.error .assertion, x)
  | .appendFirst s e b => with_ (x.seqs[s]?) x fun v => with_ (x.entries[e]?) x fun g =>
      if Plain.fits v.dimension g.2 then x.change s v b (g :: v.entries) (g.2 :: v.word) else (.error .assertion, x)
  | .appendLast s e b => with_ (x.seqs[s]?) x fun v => with_ (x.entries[e]?) x fun g =>
      if Plain.fits v.dimension g.2 then x.change s v b (v.entries ++ [g]) (v.word ++ [g.2]) else (.error .assertion, x)
  | .removeFirst s b => with_ (x.seqs[s]?) x fun v =>
      match v.entries.head? with
      | none => (.ok .unit, x)
      | some g => x.change s v b v.entries.tail (g.2.dagger :: v.word)
  | .removeLast s b => with_ (x.seqs[s]?) x fun v =>
      match v.entries.getLast? with
      | none => (.ok .unit, x)
      | some g => x.change s v b v.entries.dropLast (v.word ++ [g.2.dagger])
  | .undo s => with_ (x.seqs[s]?) x fun v =>
      match v.undo with
      | none => (.error .assertion, x)
      | some old => (.ok .unit,
          { x with seqs := x.seqs.set s { v with entries := old.1, word := old.2, undo := none } })
  | .product s => with_ (x.seqs[s]?) x fun v =>
      (.ok (.op (Nat.log 2 v.dimension) (circuit (Nat.log 2 v.dimension) v.word)), x)
  | .inverse s => with_ (x.seqs[s]?) x fun v =>
      if v.isArray then (.error .attributeError, x)
      else (.ok .handle,
        { x with next := x.next + x.next,
                 seqs := x.seqs ++ [⟨v.dimension, false, (copies x.next (invertEach v.entries)).reverse,
                   (v.word.map EntryVal.dagger).reverse, none⟩] })
  | .combine ss => with_ (getAll x.seqs ss) x fun vs =>
      match vs with
      | [] => (.error .assertion, x)
      | v :: _ =>
        if ∀ v' ∈ vs, v'.dimension = v.dimension then
          (.ok .handle,
            { x with next := x.next + vs.length * x.next,
                     seqs := x.seqs ++ [⟨v.dimension, false, copyAll x.next x.next vs, (vs.map ObjSeq.word).flatten,
                       none⟩] })
        else (.error .assertion, x)
  | .getEntries s => with_ (x.seqs[s]?) x fun v =>
      (.ok (.entries (v.entries.map Prod.snd)),
        { x with next := x.next + x.next, entries := x.entries ++ copies x.next v.entries })
  | .getLength s => with_ (x.seqs[s]?) x fun v => (.ok (.length v.entries.length), x)
  | .fullUnitary e D => with_ (x.entries[e]?) x fun g =>
      if Plain.fits D g.2 then (.ok (.op (Nat.log 2 D) (g.2.op (Nat.log 2 D))), x) else (.error .assertion, x)
  | .text k fmt s => with_ (x.seqs[s]?) x fun v => (.ok (.text (k.text fmt (v.entries.map Prod.snd))), x)

/-- Calls one after the other. -/
noncomputable def run (x : Objects) : List Op → List (Except PyErr Plain.Obs) × Objects
  | [] => ([], x)
  | op :: ops => ((x.step op).1 :: ((x.step op).2.run ops).1, ((x.step op).2.run ops).2)

/-- A client with no objects. -/
def start : Objects := ⟨0, [], []⟩

/-- At every `inverse()` call of the program, no object occurs twice in the sequence. -/
def NoSharedInverse (x : Objects) : List Op → Prop
  | [] => True
  | op :: ops => (∀ s v, op = .inverse s → x.seqs[s]? = some v → (v.entries.map Prod.fst).Nodup) ∧
      NoSharedInverse (x.step op).2 ops

end Objects

/-- A place that can hold a gate object: a handle of the client, a position of a sequence, or a position of its undo
state. -/
inductive Place where
  | handle (i : ℕ)
  | entry (s k : ℕ)
  | saved (s k : ℕ)

/-- The number of the object at the place. -/
def Objects.at (x : Objects) : Place → Option ℕ
  | .handle i => x.entries[i]?.map Prod.fst
  | .entry s k => x.seqs[s]?.bind fun v => v.entries[k]?.map Prod.fst
  | .saved s k => x.seqs[s]?.bind fun v => v.undo.bind fun u => u.1[k]?.map Prod.fst

/-- The reference of the object at the place. -/
def Client.at (c : Client) : Place → Option Ref
  | .handle i => c.entries[i]?
  | .entry s k => c.seqs[s]?.bind fun r => c.world.seqs[r]?.bind fun o => o.entries[k]?
  | .saved s k => c.seqs[s]?.bind fun r => c.world.seqs[r]?.bind fun o => o.previousEntries.bind fun ps => ps[k]?

end Stoq
