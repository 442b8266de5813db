import Verif.Spec.Embed
import Verif.Spec.Basic
import Verif.Model.Sequence

/-!
# What a sequence of entries means, and what a sequence object is observed to hold
-/

namespace Stoq

/-- The operator an entry applies to a system of `n` qubits. -/
def EntryVal.op (e : EntryVal) (n : ℕ) : Matrix (Fin (2 ^ n)) (Fin (2 ^ n)) ℂ :=
  embed n e.applyTo (e.unitary.matrix.toMatrix _)

/-- The operator applied by a list of entries, the first entry acting first (rightmost). -/
def circuit (n : ℕ) : List EntryVal → Matrix (Fin (2 ^ n)) (Fin (2 ^ n)) ℂ
  | [] => 1
  | e :: es => circuit n es * e.op n

/-- The inverse entry: conjugate transposed matrix, same qubits, dagger mark flipped. -/
def EntryVal.dagger (e : EntryVal) : EntryVal :=
  { e with unitary := { e.unitary with matrix := e.unitary.matrix.ct, isInverse := !e.unitary.isInverse } }

/-- The entry has a well-formed qubit list for its dimension (guaranteed by the constructor, C11). -/
structure EntryVal.WF (e : EntryVal) : Prop where
  nodup : e.applyTo.Nodup
  nonempty : e.applyTo ≠ []
  dim : e.getDimension = 2 ^ e.applyTo.length

/-- All qubits of the entry exist on a system of `n` qubits. -/
def EntryVal.Fits (e : EntryVal) (n : ℕ) : Prop := ∀ q ∈ e.applyTo, q < n

/-- The entry's unitary is exactly unitary with determinant one (guaranteed by the constructor on unitary
data, C01). -/
def EntryVal.Exact (e : EntryVal) : Prop := e.unitary.Exact (2 ^ e.applyTo.length)

/-- The values of the entry objects with the given references. -/
def World.vals (w : World) (rs : List Ref) : List EntryVal :=
  rs.filterMap fun r => w.entries[r]?.map EntryObj.toVal

/-- What can be observed of a sequence, apart from performance: its dimension, whether it is backed by a numpy
array, its entries and the entries `undo()` would restore. -/
structure SeqView where
  dimension : ℕ
  isArray : Bool
  entries : List EntryVal
  undo : Option (List EntryVal)

/-- The view of sequence `s` in world `w`. -/
def World.view (w : World) (s : SRef) : Option SeqView :=
  w.seqs[s]?.map fun o => ⟨o.dimension, o.isArray, w.vals o.entries, o.previousEntries.map w.vals⟩

end Stoq
