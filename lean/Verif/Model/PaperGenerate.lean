import Verif.Model.PaperPrimitives
import Verif.Model.TestsCompile

/-!
# How the paper's circuits are generated

Cells 4, 5 and 11 of paper/fig4/sequence-generation/ideal_rav_vs_xeb_simulations_2q.ipynb (and of its siblings for 3 to
8 qubits).  `num_system_qubits` is `n` and all qubits are used.  The names of the files and what is printed are left out,
but the calls whose results are printed are made.  The numbers of layers, steps and circuits and the largest cost are
arguments; the notebook for 2 qubits uses 10, 4000, 20 and 0.02.  The `while` loop need not end: `tries` bounds the number of rounds, and running out of it stands
for "still running".
-/

namespace Stoq

namespace Paper

open Tests

/-- `unitary_primitive_counts` of cell 4. -/
noncomputable def primitiveCounts (n : ℕ) : Except PyErr (List (Primitive × ℤ)) := do
  let r ← qscoutR n (Real.pi / 10)
  let rz ← qscoutRz n (Real.pi / 10)
  let ms ← qscoutMs n (Real.pi / 10)
  return [(r, 3), (rz, 3), (ms, 1)]

/-- What both cells do with a new circuit: `product.distance_from(identity)`, after which its length is printed. -/
noncomputable def finalCost (τ : Arith) (n s : ℕ) : PyM Client ℝ := do
  let product ← product τ s
  let identity ← PyM.lift (Unitary.identity τ (2 ^ n))
  let cost ← PyM.lift (product.distanceFrom τ identity)
  let _ ← length τ s
  return cost

open Classical in
/-- The `while` loop of cell 5, entered with `final_cost = 1.0`; the number of the last circuit. -/
noncomputable def ravCircuit (τ : Arith) (n : ℕ) (counts : List (Primitive × ℤ)) (layers steps : ℤ)
    (bound : ℝ) : ℕ → PyM Client ℕ
  | 0 => PyM.raise .outOfFuel
  | tries + 1 => do
    let s ← returned τ (.layeredRav (2 ^ n) counts layers (some 1) 0.5 steps)
    let cost ← finalCost τ n s
    if cost > bound then ravCircuit τ n counts layers steps bound tries else return s

/-- What is written to the file of a circuit. -/
noncomputable def file (τ : Arith) (fmt : ℕ → ℝ → String) (n s : ℕ) : PyM Client String := do
  let text ← perform τ (.text .jaqal fmt s) fun
    | .text t => some t
    | _ => none
  return "\n    from qscout.v1.std usepulses *\n    register q[" ++ toString n ++ "]\n    prepare_all\n    " ++ text ++
    "\n    measure_all\n    "

/-- Cell 5: the numbers of the circuits and the files, for `range(count)`. -/
noncomputable def ravCircuits (τ : Arith) (fmt : ℕ → ℝ → String) (n : ℕ) (counts : List (Primitive × ℤ))
    (layers steps : ℤ) (bound : ℝ) (tries : ℕ) : ℕ → PyM Client (List (ℕ × String))
  | 0 => pure []
  | count + 1 => do
    let s ← ravCircuit τ n counts layers steps bound tries
    let f ← file τ fmt n s
    let rest ← ravCircuits τ fmt n counts layers steps bound tries count
    return (s, f) :: rest

/-- `rav_results[seq_idx].compiled_sequence.get_length() // int(sum(list(unitary_primitive_counts.values())))`. -/
noncomputable def xebLayerCount (counts : List (Primitive × ℤ)) (l : ℕ) : Except PyErr ℤ :=
  let size := (counts.map Prod.snd).sum
  if size = 0 then .error .zeroDivision else .ok (Int.fdiv l size)

/-- Cell 11, for the circuits of cell 5. -/
noncomputable def xebCircuits (τ : Arith) (fmt : ℕ → ℝ → String) (n : ℕ) (counts : List (Primitive × ℤ)) :
    List (ℕ × String) → PyM Client (List (ℕ × String))
  | [] => pure []
  | rav :: rest => do
    let l ← length τ rav.1
    let layers ← PyM.lift (xebLayerCount counts l)
    let s ← returned τ (.layeredRav (2 ^ n) counts layers (some 0) 0.5 0)
    let _ ← finalCost τ n s
    let f ← file τ fmt n s
    let others ← xebCircuits τ fmt n counts rest
    return (s, f) :: others

/-- Both cells, in a new kernel. -/
noncomputable def circuits (τ : Arith) (fmt : ℕ → ℝ → String) (n : ℕ) (layers steps : ℤ) (bound : ℝ)
    (count tries : ℕ) :
    PyM Client (List (ℕ × String) × List (ℕ × String)) := do
  let counts ← PyM.lift (primitiveCounts n)
  let rav ← ravCircuits τ fmt n counts layers steps bound tries count
  let xeb ← xebCircuits τ fmt n counts rav
  return (rav, xeb)

end Paper

end Stoq
