import Verif.Model.Unitary

/-!
# class UnitarySequenceEntry   (stoqcompiler/unitary/unitary_sequence_entry.py)

This file models the side-effect free part: the constructor checks, the permutation matrix and the full
unitary as computed on a cache miss.  The per-object cache is modelled in `Verif.Model.Sequence`.
-/

namespace Stoq

/-- The immutable content of a `UnitarySequenceEntry` (unitary_sequence_entry.py:34-35). -/
structure EntryVal where
  unitary : Unitary
  applyTo : List ℕ

namespace EntryVal

/-- `UnitarySequenceEntry.__init__` (unitary_sequence_entry.py:21-36).  `np.min([])` raises ValueError. -/
noncomputable def new (unitary : Unitary) (applyTo : List ℤ) : Except PyErr EntryVal := do
  assertE applyTo.Nodup
  assertE (2 ^ applyTo.length = unitary.getDimension)
  raiseUnless (applyTo ≠ []) .valueError
  assertE (∀ a ∈ applyTo, 0 ≤ a)
  return { unitary, applyTo := applyTo.map Int.toNat }

/-- `get_dimension` (unitary_sequence_entry.py:38-46). -/
def getDimension (e : EntryVal) : ℕ := e.unitary.getDimension

/-- First loop of `get_permute_matrix` (unitary_sequence_entry.py:114-118):
`permute_order = [None] * n` and `permute_order[apply_to[k]] = k`. -/
def orderApplied (n : ℕ) (applyTo : List ℕ) : List (Option ℕ) :=
  applyTo.zipIdx.foldl (fun order ak => order.set ak.1 (some ak.2)) (List.replicate n none)

/-- Second loop (unitary_sequence_entry.py:119-122): fill the `None` slots with the next indices. -/
def orderFill : List (Option ℕ) → ℕ → List ℕ
  | [], _ => []
  | some k :: rest, next => k :: orderFill rest next
  | none :: rest, next => next :: orderFill rest (next + 1)

/-- `permute_order` (unitary_sequence_entry.py:113-122). -/
def permuteOrder (n : ℕ) (applyTo : List ℕ) : List ℕ :=
  orderFill (orderApplied n applyTo) applyTo.length

/-- One row (`counter = c`) of the array computed by `_select(sel, dims)`
(unitary_sequence_entry.py:74-92). -/
def selectRow (sel dims : List ℕ) (c : ℕ) : List ℕ :=
  (List.range sel.length).foldl
    (fun row k =>
      row.set (sel.getD k 0)
        ((c / ((sel.drop (k + 1)).map (fun q => dims.getD q 0)).prod) % dims.getD (sel.getD k 0) 0 + 1))
    (List.replicate dims.length 1)

/-- `np.cumprod`. -/
def cumprod (l : List ℕ) : List ℕ := (l.scanl (· * ·) 1).tail

/-- One element of `perm_inds` (unitary_sequence_entry.py:106-111): `np.dot(irev, fact)` for row `c`. -/
def permInd (dims order : List ℕ) (c : ℕ) : ℕ :=
  let irev := ((selectRow order dims c).reverse).map (· - 1)
  let fact := 1 :: cumprod (dims.reverse.dropLast)
  (List.zipWith (· * ·) irev fact).sum

/-- `_perm_inds(dims, order)` (unitary_sequence_entry.py:94-111); the number of rows is the product of the
selected dimensions (`rprod`, line 85). -/
noncomputable def permInds (dims order : List ℕ) : Except PyErr (List ℕ) := do
  assertE (order.mergeSort = List.range dims.length)
  let rprod := (order.map (fun q => dims.getD q 0)).prod
  return (List.range rprod).map (permInd dims order)

/-- `get_permute_matrix` (unitary_sequence_entry.py:57-131).  `scipy.sparse.coo_matrix` raises ValueError
when data, row and column arrays have different lengths. -/
noncomputable def getPermuteMatrix (e : EntryVal) (systemDimension : ℕ) : Except PyErr Arr := do
  assertE (systemDimension ≥ e.getDimension)
  assertE (systemDimension ≥ 2 ^ (listMax e.applyTo + 1))
  let numSystemQubits := intLog2 systemDimension
  let inds ← permInds (List.replicate numSystemQubits 2) (permuteOrder numSystemQubits e.applyTo)
  raiseUnless (inds.length = systemDimension) .valueError
  return { rows := systemDimension, cols := systemDimension,
           val := fun r c => if inds.getD r 0 = c then 1 else 0 }

/-- `get_full_unitary` on a cache miss (unitary_sequence_entry.py:148-167).
`int(system_dimension / self.get_dimension())` is integer division. -/
noncomputable def fullUnitary (τ : Arith) (e : EntryVal) (systemDimension : ℕ) : Except PyErr Unitary := do
  assertE (systemDimension ≥ e.getDimension)
  let expansion ← Unitary.identity τ (systemDimension / e.getDimension)
  let expanded ← e.unitary.tensor τ expansion
  assertE (expanded.getDimension = systemDimension)
  let permuteMatrix ← e.getPermuteMatrix systemDimension
  let fullMatrix := (permuteMatrix.matmul expanded.getMatrix).matmul permuteMatrix.transpose
  Unitary.new τ systemDimension (some fullMatrix) (some e.unitary.getOperationName)
    (some e.unitary.parameterDict) false e.applyTo

end EntryVal

end Stoq
