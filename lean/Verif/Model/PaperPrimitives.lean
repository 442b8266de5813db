import Mathlib.Logic.Equiv.Fin.Basic
import Verif.Model.PaperNoise
import Verif.Model.Parameterized

/-!
# The gate set of the paper's experiments

Cell 2 of paper/fig4/sequence-generation/ideal_rav_vs_xeb_simulations_2q.ipynb (and of its siblings for 3 to 8
qubits): `qscout_r`, `qscout_rz` and `qscout_ms`.  `num_system_qubits` is `n` and `qubits_to_use` are all `n` qubits,
as there, so the filter with `issubset` keeps every list and is left out.
-/

namespace Stoq

namespace Paper

/-- A numpy array with the given elements. -/
noncomputable def asArr {d : ℕ} (M : Matrix (Fin d) (Fin d) ℂ) : Arr where
  rows := d
  cols := d
  val := fun i j => if h : i < d ∧ j < d then M ⟨i, h.1⟩ ⟨j, h.2⟩ else 0

/-- `ParameterizedUnitaryParameter("Φ", -np.pi, np.pi, is_angle=True)`. -/
noncomputable def phiParameter : Except PyErr Parameter := Parameter.new "Φ" (-Real.pi) Real.pi true

/-- `ParameterizedUnitaryParameter("θ", -max_angle, max_angle, is_angle=True)`. -/
noncomputable def thetaParameter (maxAngle : ℝ) : Except PyErr Parameter :=
  Parameter.new "θ" (-maxAngle) maxAngle true

/-- `[[q] for q in range(num_system_qubits)]`. -/
def connectivity1 (n : ℕ) : List (List ℤ) := (List.range n).map fun (q : ℕ) => [(q : ℤ)]

/-- `[[i,j] for i in range(num_system_qubits) for j in range(num_system_qubits) if i != j]`. -/
def connectivity2 (n : ℕ) : List (List ℤ) :=
  (List.range n).flatMap fun (i : ℕ) => ((List.range n).filter fun (j : ℕ) => i ≠ j).map fun (j : ℕ) =>
    [(i : ℤ), (j : ℤ)]

/-- `qscout_r(max_angle)`: the matrix function is `U_R`. -/
noncomputable def qscoutR (n : ℕ) (maxAngle : ℝ) : Except PyErr Primitive := do
  let phi ← phiParameter
  let theta ← thetaParameter maxAngle
  let pu ← ParamUnitary.new 2
    (fun vs => match vs with
      | [φ, θ] => .ok (asArr (U_R φ θ))
      | _ => .error .typeError)
    [phi, theta] "R"
  Primitive.new (.inr pu) (some (connectivity1 n))

/-- `qscout_rz(max_angle)`: the matrix function is `U_Rz`. -/
noncomputable def qscoutRz (n : ℕ) (maxAngle : ℝ) : Except PyErr Primitive := do
  let theta ← thetaParameter maxAngle
  let pu ← ParamUnitary.new 2
    (fun vs => match vs with
      | [θ] => .ok (asArr (U_Rz θ))
      | _ => .error .typeError)
    [theta] "Rz"
  Primitive.new (.inr pu) (some (connectivity1 n))

/-- `qscout_ms(max_angle)`: the matrix function is `U_MS`, with rows and columns numbered as in `np.kron`. -/
noncomputable def qscoutMs (n : ℕ) (maxAngle : ℝ) : Except PyErr Primitive := do
  let phi ← phiParameter
  let theta ← thetaParameter maxAngle
  let pu ← ParamUnitary.new 4
    (fun vs => match vs with
      | [φ, θ] => .ok (asArr ((U_MS φ θ).submatrix (finProdFinEquiv (m := 2) (n := 2)).symm
          (finProdFinEquiv (m := 2) (n := 2)).symm))
      | _ => .error .typeError)
    [phi, theta] "MS"
  Primitive.new (.inr pu) (some (connectivity2 n))

end Paper

end Stoq
