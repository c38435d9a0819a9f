import Mathlib.Analysis.Real.Sqrt
import Verif.Model.Err

/-!
# Model of `smearing.py`

All functions of the source act elementwise on arrays; the model is the function for one cell.  Floats are real numbers.
The constants `1e-4`, `1e-40` and `1e-50` and the radius of the sphere are kept; the only simplification is
documented at `guardDiff`.
The sampling of surfaces (`samples`) is only modelled as far as `cube_cut_area_com`.
-/

namespace TB.Smear

/-- `EPSILON` (smearing.py 58). -/
noncomputable def EPSILON : ℝ := 1 / 10 ^ 4

/-- A normal after `cube_precomp`, with the norm of the original. -/
structure Normal where
  ax : ℝ
  ay : ℝ
  az : ℝ
  norm : ℝ

/-- `(ax**2 + ay**2 + az**2)**0.5` plus a tiny number, e.g. smearing.py 62. -/
noncomputable def norm3 (ax ay az tiny : ℝ) : ℝ := Real.sqrt (ax ^ 2 + ay ^ 2 + az ^ 2) + tiny

/-- `cube_precomp` (smearing.py 60-65). -/
noncomputable def cubePrecomp (ax ay az : ℝ) : Normal :=
  let norm := norm3 |ax| |ay| |az| (1 / 10 ^ 40)
  { ax := max (|ax| / norm) EPSILON, ay := max (|ay| / norm) EPSILON, az := max (|az| / norm) EPSILON, norm := norm }

/-- `cube_cut_volume` (smearing.py 68-84). -/
noncomputable def cubeCutVolume (a0 : ℝ) (n : Normal) : ℝ :=
  let t := |a0| / n.norm
  let a1 := (-n.ax + n.ay + n.az) / 2
  let a2 := (n.ax - n.ay + n.az) / 2
  let a3 := (n.ax + n.ay - n.az) / 2
  let volume := (max 0 ((n.ax + n.ay + n.az) / 2 - t)) ^ 3 - (max 0 (a1 - t)) ^ 3 - (max 0 (a2 - t)) ^ 3 +
    (max 0 (-(min (min a1 a2) a3) - t)) ^ 3 - (max 0 (a3 - t)) ^ 3
  let volume' := if t < Real.sqrt 3 / 2 then min 1 (volume / (6 * n.ax * n.ay * n.az)) else 0
  if a0 < 0 then volume' else 1 - volume'

/-- `cube_cut_dvolume` (smearing.py 87-100). -/
noncomputable def cubeCutDvolume (a0 : ℝ) (n : Normal) : ℝ :=
  let t := |a0| / n.norm
  let a1 := (-n.ax + n.ay + n.az) / 2
  let a2 := (n.ax - n.ay + n.az) / 2
  let a3 := (n.ax + n.ay - n.az) / 2
  let area := (max 0 ((n.ax + n.ay + n.az) / 2 - t)) ^ 2 - (max 0 (a1 - t)) ^ 2 - (max 0 (a2 - t)) ^ 2 +
    (max 0 (-(min (min a1 a2) a3) - t)) ^ 2 - (max 0 (a3 - t)) ^ 2
  if t < Real.sqrt 3 / 2 then area / (2 * (n.ax * n.ay * n.az * n.norm)) else 0

/-- `cube_cut_volume_dvolume` (smearing.py 103-121). -/
noncomputable def cubeCutBoth (a0 : ℝ) (n : Normal) : ℝ × ℝ :=
  let t := |a0| / n.norm
  let a1 := (-n.ax + n.ay + n.az) / 2
  let a2 := (n.ax - n.ay + n.az) / 2
  let a3 := (n.ax + n.ay - n.az) / 2
  let v0 := max 0 ((n.ax + n.ay + n.az) / 2 - t)
  let v1 := max 0 (a1 - t)
  let v2 := max 0 (a2 - t)
  let v3 := max 0 (a3 - t)
  let v4 := max 0 (-(min (min a1 a2) a3) - t)
  let volume := v0 ^ 3 - v1 ^ 3 - v2 ^ 3 + v4 ^ 3 - v3 ^ 3
  let area := v0 ^ 2 - v1 ^ 2 - v2 ^ 2 + v4 ^ 2 - v3 ^ 2
  let axyz := n.ax * n.ay * n.az
  let volume' := if t < Real.sqrt 3 / 2 then volume / (6 * axyz) else 0
  let dvolume := if t < Real.sqrt 3 / 2 then area / (2 * axyz * n.norm) else 0
  (if a0 < 0 then volume' else 1 - volume', dvolume)

/-- `np.sign`. -/
noncomputable def sign (x : ℝ) : ℝ := if x < 0 then -1 else if 0 < x then 1 else 0

/-- `cube_cut_area_com` (smearing.py 124-150): the area and the three coordinates of the point.
Division by `inf` is written as zero. -/
noncomputable def cubeCutAreaCom (a0 : ℝ) (n : Normal) (sx sy sz : ℝ) : ℝ × (ℝ × ℝ × ℝ) :=
  let t := a0 / n.norm
  let v0 := max 0 ((n.ax + n.ay + n.az) / 2 + t)
  let v1 := max 0 ((-n.ax + n.ay + n.az) / 2 + t)
  let v2 := max 0 ((n.ax - n.ay + n.az) / 2 + t)
  let v3 := max 0 ((n.ax + n.ay - n.az) / 2 + t)
  let v4 := max 0 ((n.ax - n.ay - n.az) / 2 + t)
  let v5 := max 0 ((-n.ax + n.ay - n.az) / 2 + t)
  let v6 := max 0 ((-n.ax - n.ay + n.az) / 2 + t)
  let v7 := max 0 ((-n.ax - n.ay - n.az) / 2 + t)
  let area := if |t| < Real.sqrt 3 / 2 then
    v0 ^ 2 - v1 ^ 2 - v2 ^ 2 + v4 ^ 2 - v3 ^ 2 + v5 ^ 2 + v6 ^ 2 - v7 ^ 2 else 0
  -- one coordinate; `ci` is the sign of the corner in this coordinate, `d` one third of the inverse of the normal
  let com (c0 c1 c2 c4 c3 c5 c6 c7 d : ℝ) : ℝ :=
    v0 ^ 2 * (c0 / 2 + d * v0) - v1 ^ 2 * (c1 / 2 + d * v1) - v2 ^ 2 * (c2 / 2 + d * v2) + v4 ^ 2 * (c4 / 2 + d * v4)
      - v3 ^ 2 * (c3 / 2 + d * v3) + v5 ^ 2 * (c5 / 2 + d * v5) + v6 ^ 2 * (c6 / 2 + d * v6) - v7 ^ 2 * (c7 / 2 + d * v7)
  let over (x : ℝ) : ℝ := if area ≠ 0 then x / area else 0
  let axyz := n.ax * n.ay * n.az
  (if |axyz| ≠ 0 then area / (2 * axyz) else 0,
    over (com (-1) 1 (-1) (-1) (-1) 1 1 1 (1 / 3 / n.ax) * sign sx),
    over (com (-1) (-1) 1 1 (-1) (-1) 1 1 (1 / 3 / n.ay) * sign sy),
    over (com (-1) (-1) (-1) 1 1 1 (-1) 1 (1 / 3 / n.az) * sign sz))

/-- The eight corner values of a cell, bit 0 of the index is the x direction (smearing.py 176-178). -/
abbrev Corners := Fin 8 → ℝ

/-- Value at the centre of a cell and gradient, from the corner values (smearing.py 179-182, also 285-288 and 479-482). -/
noncomputable def cornerFit (a : Corners) : ℝ × ℝ × ℝ × ℝ :=
  ((a 0 + a 1 + a 2 + a 3 + a 4 + a 5 + a 6 + a 7) / 8,
   (-a 0 + a 1 - a 2 + a 3 - a 4 + a 5 - a 6 + a 7) / 4,
   (-a 0 - a 1 + a 2 + a 3 - a 4 - a 5 + a 6 + a 7) / 4,
   (-a 0 - a 1 - a 2 - a 3 + a 4 + a 5 + a 6 + a 7) / 4)

/-- The corner values of cell `(i, j, k)` of a grid with `n₀ × n₁ × n₂` points: `np.roll(values, -1, axis)` takes the
next value and wraps around at the end (smearing.py 176-178). -/
def gridCorners (n0 n1 n2 : ℕ) (v : ℕ → ℕ → ℕ → ℝ) (i j k : ℕ) : Corners := fun c =>
  v (if c.val % 2 = 1 then (i + 1) % n0 else i) (if c.val / 2 % 2 = 1 then (j + 1) % n1 else j)
    (if c.val / 4 % 2 = 1 then (k + 1) % n2 else k)

/-- `extrapolate_poly` (smearing.py 251-256).  The inner loop replaces `T[k]` for `k = 0, 1, ...`; it only uses `T[k]`
and the old `T[k+1]`. -/
noncomputable def extrapolatePoly (p : ℕ) : ℕ → List ℝ → ℝ
  | m, T =>
    match T with
    | [] => 0
    | [x] => x
    | x :: y :: l =>
      extrapolatePoly p (m + 1)
        (List.zipWith (fun a b => b + (b - a) / ((2 ^ p : ℝ) ^ m - 1)) (x :: y :: l) (y :: l))
  termination_by _ T => T.length

/-- `np.sort` of three numbers (smearing.py 357). -/
noncomputable def sort3 (a b c : ℝ) : ℝ × ℝ × ℝ :=
  (min (min a b) c, max (min a b) (min (max a b) c), max (max a b) c)

/-- A difference with `1e-50` added (smearing.py 366, 383).  Simplification: in the float numbers of the source the
addition changes the difference only if it is zero (or below `1e-34`), so the model replaces only zero. -/
noncomputable def guardDiff (d : ℝ) : ℝ := if d = 0 then 1 / 10 ^ 50 else d

/-- Values of smearing.py 355-364: the dual flag and `a0, ax, ay, az` after normalisation, sorting and clamping. -/
noncomputable def tetraPrep (a0 ax ay az : ℝ) : Bool × ℝ × ℝ × ℝ × ℝ :=
  let norm := norm3 ax ay az (1 / 10 ^ 50)
  let s := sort3 (ax / norm) (ay / norm) (az / norm)
  let b0 := a0 / norm
  let dual : Bool := decide (s.2.1 + b0 < 0)
  let q : ℝ × ℝ × ℝ × ℝ := if dual then (-b0, -s.2.2, -s.2.1, -s.1) else (b0, s.1, s.2.1, s.2.2)
  (dual, q.1, if |q.2.1| < 4 / 10 ^ 9 then -4 / 10 ^ 9 else q.2.1,
    if |q.2.2.1| < 1 / 10 ^ 9 then 1 / 10 ^ 9 else q.2.2.1, if |q.2.2.2| < 2 / 10 ^ 9 then 2 / 10 ^ 9 else q.2.2.2)

/-- `unit_tetra_cut_volume` (smearing.py 353-367). -/
noncomputable def unitTetraCutVolume (a0 ax ay az : ℝ) : ℝ :=
  let q := tetraPrep a0 ax ay az
  let b0 := q.2.1
  let x := q.2.2.1
  let y := q.2.2.2.1
  let z := q.2.2.2.2
  let volume := (max 0 (-b0)) ^ 3 / (x * y * z) - (max 0 (-x - b0)) ^ 3 / (x * guardDiff (y - x) * guardDiff (z - x))
  (if q.1 then volume else 1 - volume) / 6

/-- `unit_tetra_cut_dvolume` (smearing.py 370-384). -/
noncomputable def unitTetraCutDvolume (a0 ax ay az : ℝ) : ℝ :=
  let q := tetraPrep a0 ax ay az
  let b0 := q.2.1
  let x := q.2.2.1
  let y := q.2.2.2.1
  let z := q.2.2.2.2
  let dvolume := (max 0 (-b0)) ^ 2 / (x * y * z) - (max 0 (-x - b0)) ^ 2 / (x * guardDiff (y - x) * guardDiff (z - x))
  dvolume / 2 / norm3 ax ay az (1 / 10 ^ 50)

/-- `tetra_cut_volume` (smearing.py 387-392). -/
noncomputable def tetraCutVolume (v0 v1 v2 v3 : ℝ) : ℝ := unitTetraCutVolume v0 (v1 - v0) (v2 - v0) (v3 - v0)

/-- `tetra_cut_dvolume` (smearing.py 395-400). -/
noncomputable def tetraCutDvolume (v0 v1 v2 v3 : ℝ) : ℝ := unitTetraCutDvolume v0 (v1 - v0) (v2 - v0) (v3 - v0)

/-- `cube_tetra_cut_volume` (smearing.py 403-411). -/
noncomputable def cubeTetraCutVolume (a : Corners) : ℝ :=
  tetraCutVolume (a 0) (a 7) (a 1) (a 3) + tetraCutVolume (a 0) (a 7) (a 3) (a 2) + tetraCutVolume (a 0) (a 7) (a 2) (a 6) +
    tetraCutVolume (a 0) (a 7) (a 6) (a 4) + tetraCutVolume (a 0) (a 7) (a 4) (a 5) + tetraCutVolume (a 0) (a 7) (a 5) (a 1)

/-- `cube_tetra_cut_dvolume` (smearing.py 414-422). -/
noncomputable def cubeTetraCutDvolume (a : Corners) : ℝ :=
  tetraCutDvolume (a 0) (a 7) (a 1) (a 3) + tetraCutDvolume (a 0) (a 7) (a 3) (a 2) + tetraCutDvolume (a 0) (a 7) (a 2) (a 6) +
    tetraCutDvolume (a 0) (a 7) (a 6) (a 4) + tetraCutDvolume (a 0) (a 7) (a 4) (a 5) + tetraCutDvolume (a 0) (a 7) (a 5) (a 1)

/-- The radius in smearing.py 458. -/
noncomputable def sphereRadius : ℝ := 620350490899 / 10 ^ 12

/-- `unit_sphere_cut` (smearing.py 455-463). -/
noncomputable def unitSphereCut (a0 ax ay az : ℝ) : ℝ × ℝ :=
  let norm := norm3 ax ay az (1 / 10 ^ 50)
  let d := max (min (a0 / (norm * sphereRadius)) 1) (-1)
  let dp := 1 + d
  (dp * dp * (2 - d) * (1 / 4), dp * (1 - d) * (3 / 4 / sphereRadius) / norm)

end TB.Smear
