import Verif.Model.QeRead

/-!
# The file `atomic_proj.xml` of `projwfc.x`

Per k-point the elements `K-POINT` (three numbers), `E` (one number per band, in Rydberg) and `PROJS` with one element `ATOMIC_WFC` per spin
and wave function (numbered from one, in any order), holding real and imaginary part for all bands; possibly one `OVPS` per k-point with the
overlaps row by row.
-/

namespace TB.Spec.ProjXml
open TB TB.QeRead

/-- The content. -/
structure Content where
  k : ℕ → Fin 3 → ℝ
  e : ℕ → ℕ → ℝ
  proj : ℕ → ℕ → ℕ → ℕ → ℂ
  overlap : Option (ℕ → ℕ → ℕ → ℂ)
  fermi : ℝ
  electrons : ℝ

/-- Complex numbers as printed. -/
def printed (l : List ℂ) : List ℝ := l.flatMap fun z => [z.re, z.im]

/-- The document with `m` k-points whose header says `n` k-points, `b` bands, `s` spins, `w` wave functions. -/
def Content.file (c : Content) (m n b s w : ℕ) (order : ℕ → List (ℕ × ℕ)) : ProjFile where
  fermi := c.fermi
  electrons := c.electrons
  bands := b
  ks := n
  spins := s
  wfcs := w
  kList := (List.range m).map fun i => [c.k i 0, c.k i 1, c.k i 2]
  eList := (List.range m).map fun i => (List.range b).map fun j => c.e i j
  projList := (List.range m).map fun i => (order i).map fun q =>
    ⟨(q.2 : ℤ) + 1, (q.1 : ℤ) + 1, printed ((List.range b).map fun j => c.proj i j q.1 q.2)⟩
  overlapList := match c.overlap with
    | none => []
    | some o => (List.range m).map fun i => printed ((List.range (s * w)).flatMap fun x => (List.range (s * w)).map fun y => o i x y)

end TB.Spec.ProjXml
