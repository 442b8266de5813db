import Verif.Model.Entry
import Verif.Model.Rng

/-!
# class UnitarySequence   (stoqcompiler/unitary/unitary_sequence.py)

`UnitarySequenceEntry` and `UnitarySequence` objects are mutable and can be shared, so they live on an
explicit heap (`World`) and are handled by reference.  `copy.deepcopy` of a list of entries copies each
*distinct* object once (Python's memo), so sharing inside a list is preserved by the copy.
-/

namespace Stoq

/-- Reference to a `UnitarySequenceEntry` object. -/
macro "Ref" : term => `(Nat)
/-- Reference to a `UnitarySequence` object. -/
macro "SRef" : term => `(Nat)
/-- Reference to a `Compiler` object. -/
macro "CRef" : term => `(Nat)

/-- A `UnitarySequenceEntry` object: content plus `full_unitary_by_dimension`
(unitary_sequence_entry.py:34-36). -/
structure EntryObj where
  toVal : EntryVal
  cache : List (ℕ × Unitary)

/-- A `UnitarySequence` object (unitary_sequence.py:32-42).  `isArray` records whether `sequence_entries`
is a numpy array (allowed by unitary_sequence.py:34-35) instead of a list; `previous_entries` always has
the same kind because it is a deep copy. -/
structure SeqObj where
  dimension : ℕ
  isArray : Bool
  entries : List Ref
  product : Option Unitary
  previousEntries : Option (List Ref)
  previousProduct : Option Unitary

/-- Mutable attributes of a `Compiler` object used by the loop are in `Verif.Model.Compiler`; here only the
annealing parameter `beta` (compiler.py:70) is on the heap because it is the only attribute ever mutated. -/
structure World where
  entries : List EntryObj
  seqs : List SeqObj
  betas : List ℝ
  rng : Rng

namespace World

/-- Run random code. -/
def withRng {α : Type _} (m : PyM Rng α) : PyM World α :=
  PyM.zoom World.rng (fun w r => { w with rng := r }) m

/-- Dereference an entry object. -/
def getEntry (r : Ref) : PyM World EntryObj := fun w =>
  match w.entries[r]? with
  | some o => (.ok o, w)
  | none => (.error .dangling, w)

/-- Overwrite the attributes of an entry object. -/
def setEntry (r : Ref) (o : EntryObj) : PyM World Unit :=
  PyM.modify fun w => { w with entries := w.entries.set r o }

/-- Allocate an entry object. -/
def allocEntry (o : EntryObj) : PyM World Ref := fun w =>
  (.ok w.entries.length, { w with entries := w.entries ++ [o] })

/-- Dereference a sequence object. -/
def getSeq (s : SRef) : PyM World SeqObj := fun w =>
  match w.seqs[s]? with
  | some o => (.ok o, w)
  | none => (.error .dangling, w)

/-- Overwrite the attributes of a sequence object. -/
def setSeq (s : SRef) (o : SeqObj) : PyM World Unit :=
  PyM.modify fun w => { w with seqs := w.seqs.set s o }

/-- Allocate a sequence object. -/
def allocSeq (o : SeqObj) : PyM World SRef := fun w =>
  (.ok w.seqs.length, { w with seqs := w.seqs ++ [o] })

end World

open World

namespace Entry

/-- `UnitarySequenceEntry(unitary, apply_to)` as an object with an empty cache
(unitary_sequence_entry.py:21-36). -/
noncomputable def new (unitary : Unitary) (applyTo : List ℤ) : PyM World Ref := do
  let v ← PyM.lift (EntryVal.new unitary applyTo)
  allocEntry { toVal := v, cache := [] }

/-- `get_full_unitary` (unitary_sequence_entry.py:133-169) with its cache. -/
noncomputable def getFullUnitary (τ : Arith) (r : Ref) (systemDimension : ℕ) : PyM World Unitary := do
  let o ← getEntry r
  PyM.assert (systemDimension ≥ o.toVal.getDimension)
  match o.cache.lookup systemDimension with
  | some u => return u
  | none => do
    let u ← PyM.lift (o.toVal.fullUnitary τ systemDimension)
    setEntry r { o with cache := (systemDimension, u) :: o.cache }
    return u

/-- `copy.deepcopy` of a list (or object array) of entries; `memo` maps originals to copies. -/
def deepcopyWith : List Ref → List (Ref × Ref) → PyM World (List Ref)
  | [], _ => pure []
  | r :: rs, memo =>
    match memo.lookup r with
    | some r' => do
      let rest ← deepcopyWith rs memo
      return r' :: rest
    | none => do
      let o ← getEntry r
      let r' ← allocEntry o
      let rest ← deepcopyWith rs ((r, r') :: memo)
      return r' :: rest

/-- `copy.deepcopy(entries)`. -/
def deepcopy (rs : List Ref) : PyM World (List Ref) := deepcopyWith rs []

end Entry

namespace Seq

/-- `_assert_is_entry_valid` (unitary_sequence.py:79-90). -/
noncomputable def assertIsEntryValid (dimension : ℕ) (e : Ref) : PyM World Unit := do
  let o ← getEntry e
  PyM.assert (o.toVal.getDimension ≤ dimension)
  PyM.assert (2 ^ (listMax o.toVal.applyTo + 1) ≤ dimension)

/-- `UnitarySequence.__init__` (unitary_sequence.py:24-42). -/
noncomputable def new (dimension : ℕ) (isArray : Bool) (entries : List Ref) : PyM World SRef := do
  entries.forM (assertIsEntryValid dimension)
  let copies ← Entry.deepcopy entries
  allocSeq { dimension, isArray, entries := copies, product := none,
             previousEntries := none, previousProduct := none }

/-- `get_dimension` (unitary_sequence.py:92-100). -/
def getDimension (self : SRef) : PyM World ℕ := do
  let s ← getSeq self
  return s.dimension

/-- `get_length` (unitary_sequence.py:102-109). -/
def getLength (self : SRef) : PyM World ℕ := do
  let s ← getSeq self
  return s.entries.length

/-- `get_sequence_entries` (unitary_sequence.py:111-118). -/
def getSequenceEntries (self : SRef) : PyM World (List Ref) := do
  let s ← getSeq self
  Entry.deepcopy s.entries

/-- `_save_undo_state` (unitary_sequence.py:120-128).  A `Unitary` object is always truthy, so
`if self.sequence_product:` tests for `None`. -/
noncomputable def saveUndoState (τ : Arith) (self : SRef) : PyM World Unit := do
  let s ← getSeq self
  let copies ← Entry.deepcopy s.entries
  setSeq self { s with previousEntries := some copies }
  match s.product with
  | none => return ()
  | some p => do
    let p' ← PyM.lift (Unitary.new τ p.getDimension (some p.getMatrix))
    setSeq self { s with previousEntries := some copies, previousProduct := some p' }

/-- `list.insert`, `list.append`, `list.pop`, `list.reverse` do not exist on numpy arrays. -/
noncomputable def requireList (s : SeqObj) : PyM World Unit :=
  PyM.lift (raiseUnless (s.isArray = false) .attributeError)

/-- `append_first` (unitary_sequence.py:130-152). -/
noncomputable def appendFirst (τ : Arith) (self : SRef) (e : Ref) (saveUndo : Bool := true) :
    PyM World Unit := do
  assertIsEntryValid (← getSeq self).dimension e
  if saveUndo then saveUndoState τ self
  let s ← getSeq self
  requireList s
  setSeq self { s with entries := e :: s.entries }
  match s.product with
  | none => return ()
  | some p => do
    let uAppended ← Entry.getFullUnitary τ e s.dimension
    let p' ← PyM.lift (p.rightMultiply τ uAppended)
    setSeq self { s with entries := e :: s.entries, product := some p' }

/-- `append_last` (unitary_sequence.py:154-176). -/
noncomputable def appendLast (τ : Arith) (self : SRef) (e : Ref) (saveUndo : Bool := true) :
    PyM World Unit := do
  assertIsEntryValid (← getSeq self).dimension e
  if saveUndo then saveUndoState τ self
  let s ← getSeq self
  requireList s
  setSeq self { s with entries := s.entries ++ [e] }
  match s.product with
  | none => return ()
  | some p => do
    let uAppended ← Entry.getFullUnitary τ e s.dimension
    let p' ← PyM.lift (p.leftMultiply τ uAppended)
    setSeq self { s with entries := s.entries ++ [e], product := some p' }

/-- `remove_first` (unitary_sequence.py:178-196). -/
noncomputable def removeFirst (τ : Arith) (self : SRef) (saveUndo : Bool := true) : PyM World Unit := do
  if (← getLength self) > 0 then
    if saveUndo then saveUndoState τ self
    let s ← getSeq self
    requireList s
    match s.entries with
    | [] => PyM.raise .indexError
    | removed :: rest => do
      setSeq self { s with entries := rest }
      match s.product with
      | none => return ()
      | some p => do
        let uRemoved ← Entry.getFullUnitary τ removed s.dimension
        let inv ← PyM.lift (uRemoved.inverse τ)
        let p' ← PyM.lift (p.rightMultiply τ inv)
        setSeq self { s with entries := rest, product := some p' }

/-- `remove_last` (unitary_sequence.py:198-216). -/
noncomputable def removeLast (τ : Arith) (self : SRef) (saveUndo : Bool := true) : PyM World Unit := do
  if (← getLength self) > 0 then
    if saveUndo then saveUndoState τ self
    let s ← getSeq self
    requireList s
    match s.entries.getLast? with
    | none => PyM.raise .indexError
    | some removed => do
      setSeq self { s with entries := s.entries.dropLast }
      match s.product with
      | none => return ()
      | some p => do
        let uRemoved ← Entry.getFullUnitary τ removed s.dimension
        let inv ← PyM.lift (uRemoved.inverse τ)
        let p' ← PyM.lift (p.leftMultiply τ inv)
        setSeq self { s with entries := s.entries.dropLast, product := some p' }

/-- `undo` (unitary_sequence.py:218-229). -/
noncomputable def undo (self : SRef) : PyM World Unit := do
  let s ← getSeq self
  PyM.assert (s.previousEntries ≠ none)
  setSeq self { s with entries := s.previousEntries.getD [], product := s.previousProduct,
                       previousEntries := none, previousProduct := none }

/-- The loop of `product` (unitary_sequence.py:242-245). -/
noncomputable def productLoop (τ : Arith) (dimension : ℕ) : List Ref → Unitary → PyM World Unitary
  | [], acc => pure acc
  | e :: rest, acc => do
    let uEntry ← Entry.getFullUnitary τ e dimension
    let acc' ← PyM.lift (acc.leftMultiply τ uEntry)
    productLoop τ dimension rest acc'

/-- `product` (unitary_sequence.py:231-248). -/
noncomputable def product (τ : Arith) (self : SRef) : PyM World Unitary := do
  let s ← getSeq self
  match s.product with
  | some p => return p
  | none => do
    let p0 ← PyM.lift (Unitary.new τ s.dimension)
    let p ← productLoop τ s.dimension s.entries p0
    setSeq self { s with product := some p }
    return p

/-- The loop of `inverse` (unitary_sequence.py:261-263), mutating each entry *object* in turn. -/
noncomputable def invertEntries (τ : Arith) : List Ref → PyM World Unit
  | [] => pure ()
  | e :: rest => do
    let o ← getEntry e
    let u ← PyM.lift (o.toVal.unitary.inverse τ)
    setEntry e { toVal := { o.toVal with unitary := u }, cache := [] }
    invertEntries τ rest

/-- `inverse` (unitary_sequence.py:250-265). -/
noncomputable def inverse (τ : Arith) (self : SRef) : PyM World SRef := do
  let s ← getSeq self
  let copies ← getSequenceEntries self
  let inv ← new s.dimension s.isArray copies
  let i ← getSeq inv
  requireList i
  setSeq inv { i with entries := i.entries.reverse }
  invertEntries τ i.entries.reverse
  let p ← product τ self
  let p' ← PyM.lift (p.inverse τ)
  setSeq inv { i with entries := i.entries.reverse, product := some p' }
  return inv

/-- The loop of `combine` (unitary_sequence.py:71-73). -/
noncomputable def combineLoop (τ : Arith) : List SRef → List Ref → Unitary → PyM World (List Ref × Unitary)
  | [], es, p => pure (es, p)
  | s :: rest, es, p => do
    let new ← getSequenceEntries s
    let q ← product τ s
    let p' ← PyM.lift (p.leftMultiply τ q)
    combineLoop τ rest (es ++ new) p'

/-- `combine` (unitary_sequence.py:44-77). -/
noncomputable def combine (τ : Arith) (sequences : List SRef) : PyM World SRef := do
  match sequences with
  | [] => PyM.raise .assertion
  | first :: _ => do
    let dimension ← getDimension first
    sequences.forM (fun s => do PyM.assert ((← getDimension s) = dimension))
    let p0 ← PyM.lift (Unitary.identity τ dimension)
    let (entries, p) ← combineLoop τ sequences [] p0
    let res ← new dimension false entries
    let r ← getSeq res
    setSeq res { r with product := some p }
    return res

end Seq

end Stoq
