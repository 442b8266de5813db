import Mathlib.Analysis.SpecialFunctions.Pow.Real
import Mathlib.Analysis.SpecialFunctions.Trigonometric.Basic
import Mathlib.LinearAlgebra.Matrix.Notation
import Mathlib.LinearAlgebra.Matrix.Kronecker
import Mathlib.LinearAlgebra.Matrix.Trace
import Mathlib.Data.Real.Sign

/-!
# The noisy emulator of the paper   (paper/fig5/noisy.py; paper/fig7/noisy.py is the same file)

The class gives a superoperator in the Pauli basis and a duration for every native gate; the simulation itself is in
jaqalpaq.  The functions of qscout and pygsti that the class calls are not in the repository; they are defined here as
documented by these packages.  Arrays with `4 * 4` rows are indexed by pairs, in the order of `np.kron`.  The qubit
arguments are not used by the code and are left out.  A negative number to a fractional power is `nan` in numpy; the
definitions below are used for `depolarization ≤ 1`.
-/

namespace Stoq

namespace Paper

open Matrix Complex

/-- `U_R` of `qscout.v1.native_gates`: the rotation about the axis at the angle `φ` in the x-y plane. -/
noncomputable def U_R (φ θ : ℝ) : Matrix (Fin 2) (Fin 2) ℂ :=
  !![Real.cos (θ / 2), (-I * Real.cos φ - Real.sin φ) * Real.sin (θ / 2);
     (-I * Real.cos φ + Real.sin φ) * Real.sin (θ / 2), Real.cos (θ / 2)]

/-- `U_Rz` of `qscout.v1.native_gates`. -/
noncomputable def U_Rz (θ : ℝ) : Matrix (Fin 2) (Fin 2) ℂ :=
  !![exp (-I * (θ / 2 : ℝ)), 0; 0, exp (I * (θ / 2 : ℝ))]

/-- `U_MS` of `qscout.v1.native_gates`: `cos(θ/2)` on the diagonal, `-i sin(θ/2)` with a phase on the antidiagonal. -/
noncomputable def U_MS (φ θ : ℝ) : Matrix (Fin 2 × Fin 2) (Fin 2 × Fin 2) ℂ := fun r c =>
  if r = c then Real.cos (θ / 2)
  else if r.1 ≠ c.1 ∧ r.2 ≠ c.2 then
    (if r = (0, 0) then -I * (Real.cos (φ * 2) - I * Real.sin (φ * 2))
     else if r = (1, 1) then -I * (Real.cos (φ * 2) + I * Real.sin (φ * 2)) else -I) * Real.sin (θ / 2)
  else 0

/-- The Pauli matrices in the order of `pygsti`. -/
noncomputable def pauli : Fin 4 → Matrix (Fin 2) (Fin 2) ℂ :=
  ![1, !![0, 1; 1, 0], !![0, -I; I, 0], !![1, 0; 0, -1]]

/-- Their tensor products. -/
noncomputable def pauli2 (i : Fin 4 × Fin 4) : Matrix (Fin 2 × Fin 2) (Fin 2 × Fin 2) ℂ :=
  kroneckerMap (· * ·) (pauli i.1) (pauli i.2)

/-- `pygsti.unitary_to_pauligate`: the matrix of `ρ ↦ U ρ U†` in the Pauli basis. -/
noncomputable def unitaryToPauligate {ι κ : Type} [Fintype κ] (basis : ι → Matrix κ κ ℂ) (U : Matrix κ κ ℂ) :
    Matrix ι ι ℝ := fun i j => ((basis i * (U * basis j * Uᴴ)).trace / Fintype.card κ).re

/-- The attributes of the emulator with their defaults (`__init__`, noisy.py:13-41). -/
structure JaqalNoisyEmulator where
  depolarization : ℝ := 0
  rRotationError : ℝ := 0
  rPhaseError : ℝ := 0
  msRotationError : ℝ := 0
  msPhaseError : ℝ := 0

/-- `np.diag([1, d, d, d])`. -/
def diag1ddd (d : ℝ) : Matrix (Fin 4) (Fin 4) ℝ := diagonal ![1, d, d, d]

namespace JaqalNoisyEmulator

variable (self : JaqalNoisyEmulator)

/-- `gateduration_R` (noisy.py:46-47). -/
noncomputable def gatedurationR (_axisAngle rotationAngle : ℝ) : ℝ := |rotationAngle| / (Real.pi / 2)

/-- `gate_R` (noisy.py:49-57). -/
noncomputable def gateR (axisAngle rotationAngle : ℝ) : Matrix (Fin 4) (Fin 4) ℝ :=
  let duration := gatedurationR axisAngle rotationAngle
  let depolarizationTerm := (1 - self.depolarization) ^ duration
  unitaryToPauligate pauli
    (U_R (axisAngle + 2 * Real.pi * self.rPhaseError)
      (rotationAngle + self.rRotationError * Real.sign rotationAngle)) *
    diag1ddd depolarizationTerm

/-- `gateduration_MS` (noisy.py:60-62). -/
noncomputable def gatedurationMS (_axisAngle rotationAngle : ℝ) : ℝ := 10 * |rotationAngle| / (Real.pi / 2)

/-- `gate_MS` (noisy.py:64-73). -/
noncomputable def gateMS (axisAngle rotationAngle : ℝ) : Matrix (Fin 4 × Fin 4) (Fin 4 × Fin 4) ℝ :=
  let duration := gatedurationMS axisAngle rotationAngle
  let depolarizationTerm := (1 - self.depolarization) ^ duration
  unitaryToPauligate pauli2
    (U_MS (axisAngle + 2 * Real.pi * self.msPhaseError)
      (rotationAngle + self.msRotationError * Real.sign rotationAngle)) *
    kroneckerMap (· * ·) (diag1ddd depolarizationTerm) (diag1ddd depolarizationTerm)

/-- `gateduration_Rz` (noisy.py:77-78). -/
def gatedurationRz (_angle : ℝ) : ℝ := 0

/-- `gate_Rz` (noisy.py:80-81). -/
noncomputable def gateRz (angle : ℝ) : Matrix (Fin 4) (Fin 4) ℝ := unitaryToPauligate pauli (U_Rz angle)

/-- `idle` (noisy.py:85-88). -/
noncomputable def idle (duration : ℝ) : Matrix (Fin 4) (Fin 4) ℝ := diag1ddd ((1 - self.depolarization) ^ duration)

/-- The single-qubit gates without parameters made by `_curry` (noisy.py:97-105). -/
inductive Fixed where
  | Px | Py | Pz | Sx | Sy | Sz | Sxd | Syd | Szd

/-- `gateduration_Px`, …, `gateduration_Szd` (noisy.py:97-105). -/
noncomputable def Fixed.duration : Fixed → ℝ
  | .Px => gatedurationR 0 Real.pi
  | .Py => gatedurationR (Real.pi / 2) Real.pi
  | .Pz => gatedurationRz Real.pi
  | .Sx => gatedurationR 0 (Real.pi / 2)
  | .Sy => gatedurationR (Real.pi / 2) (Real.pi / 2)
  | .Sz => gatedurationRz (Real.pi / 2)
  | .Sxd => gatedurationR 0 (-Real.pi / 2)
  | .Syd => gatedurationR (Real.pi / 2) (-Real.pi / 2)
  | .Szd => gatedurationRz (-Real.pi / 2)

/-- `gate_Px`, …, `gate_Szd` (noisy.py:97-105). -/
noncomputable def gateFixed : Fixed → Matrix (Fin 4) (Fin 4) ℝ
  | .Px => self.gateR 0 Real.pi
  | .Py => self.gateR (Real.pi / 2) Real.pi
  | .Pz => gateRz Real.pi
  | .Sx => self.gateR 0 (Real.pi / 2)
  | .Sy => self.gateR (Real.pi / 2) (Real.pi / 2)
  | .Sz => gateRz (Real.pi / 2)
  | .Sxd => self.gateR 0 (-Real.pi / 2)
  | .Syd => self.gateR (Real.pi / 2) (-Real.pi / 2)
  | .Szd => gateRz (-Real.pi / 2)

/-- `gate_Rx` (noisy.py:95). -/
noncomputable def gateRx (rotationAngle : ℝ) : Matrix (Fin 4) (Fin 4) ℝ := self.gateR 0 rotationAngle

/-- `gate_Ry` (noisy.py:96). -/
noncomputable def gateRy (rotationAngle : ℝ) : Matrix (Fin 4) (Fin 4) ℝ := self.gateR (Real.pi / 2) rotationAngle

/-- `gate_Sxx` (noisy.py:106). -/
noncomputable def gateSxx : Matrix (Fin 4 × Fin 4) (Fin 4 × Fin 4) ℝ := self.gateMS 0 (Real.pi / 2)

end JaqalNoisyEmulator

end Paper

end Stoq
