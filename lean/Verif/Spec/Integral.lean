import Verif.Model.KIntegralCache

/-!
# What an integral over Fermi surfaces is

Surface by surface, from the band model alone (no cache): velocities `v`, hessians `h` if asked for, weights `weight / (10⁻⁸ + |v|)`.
-/

namespace TB.Spec.Integral
open TB TB.KCache

variable {M : Type} [AddCommGroup M] [Module ℝ M]

/-- An axis of length one is repeated. -/
def stretch {α : Type} (n : ℕ) (l : List α) : Option (List α) :=
  if l.length = n then some l
  else match l with
    | [x] => some (List.replicate n x)
    | _ => none

/-- `∑ᵢ wᵢ fᵢ`. -/
def total (f : List M) (w : List ℝ) : Except Err M :=
  let n := if f.length = 1 then w.length else f.length
  match stretch n f, stretch n w with
  | some f, some w => .ok ((f.zip w).map fun q => q.2 • q.1).sum
  | _, _ => .error .valueError

/-- `∫ g` over one surface, with velocities `vel` and hessians `hes`. -/
noncomputable def surface (vel : V3 → ℕ → V3) (hes : Option (V3 → ℕ → M3)) (g : Integrand M) (e : ℝ) (pts : List Pt) : Except Err M :=
  match g e (pts.map fun p => vel p.k p.band) (hes.map fun H => pts.map fun p => H p.k p.band) (pts.map fun p => p.k) with
  | .error x => .error x
  | .ok f => total f (pts.map fun p =>
      p.weight / (1 / 100000000 + Real.sqrt (vel p.k p.band 0 ^ 2 + vel p.k p.band 1 ^ 2 + vel p.k p.band 2 ^ 2)))

/-- The integrals over all surfaces, up to the first failing. -/
noncomputable def surfaces (vel : V3 → ℕ → V3) (hes : Option (V3 → ℕ → M3)) (g : Integrand M) : List (ℝ × List Pt) → Except Err (List M)
  | [] => .ok []
  | s :: l =>
    match surface vel hes g s.1 s.2 with
    | .error x => .error x
    | .ok x => match surfaces vel hes g l with
      | .error y => .error y
      | .ok r => .ok (x :: r)

/-- The moments `∑ⱼ wⱼ (eⱼ - μ)ᵃ Iⱼ` for `a ≤ moments` and all temperatures. -/
noncomputable def value (s : Setup) (vel : V3 → ℕ → V3) (hes : Option (V3 → ℕ → M3)) (g : Integrand M) (moments : ℕ) :
    Except Err (List (List M)) :=
  match surfaces vel hes g s.surfaces with
  | .error x => .error x
  | .ok I => .ok ((List.range (moments + 1)).map fun a => s.temps.map fun t =>
      (((s.surfaces.zip I).zip t.2).map fun q => (q.2 * (q.1.1.1 - t.1) ^ a) • q.1.2).sum)

end TB.Spec.Integral
