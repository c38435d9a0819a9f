import Mathlib.Data.Real.Basic
import Mathlib.LinearAlgebra.Matrix.Notation

/-!
# What Quantum Espresso writes about a run

The XML file is in Hartree atomic units: lengths in units of the Bohr radius, positions cartesian, energies in Hartree (2 Ry).
-/

namespace TB.Spec.Xml

/-- A run: lattice vectors as columns in units of the Bohr radius, atoms in crystal coordinates, cutoff in Ry, temperature in K. -/
structure Run where
  lattice : Matrix (Fin 3) (Fin 3) ℝ
  atoms : List (String × (Fin 3 → ℝ))
  cutoffRy : ℝ
  T : ℝ

/-- Three numbers. -/
def nums (v : Fin 3 → ℝ) : List ℝ := [v 0, v 1, v 2]

/-- The lattice vector number `j`. -/
def Run.vector (r : Run) (j : Fin 3) : List ℝ := nums fun i => r.lattice i j

/-- Cartesian positions. -/
def Run.positions (r : Run) : List (String × List ℝ) := r.atoms.map fun a => (a.1, nums (r.lattice.mulVec a.2))

/-- Energies in Hartree: the cutoff and, with `kB` in Ry/K, the width of the smearing. -/
noncomputable def Run.cutoff (r : Run) : ℝ := r.cutoffRy / 2
noncomputable def Run.degauss (kB : ℝ) (r : Run) : ℝ := kB * r.T / 2

end TB.Spec.Xml
