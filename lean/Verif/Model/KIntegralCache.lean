import Mathlib.Analysis.Real.Sqrt
import Mathlib.Data.Matrix.Mul
import Mathlib.Algebra.Module.Pi
import Verif.Model.Err

/-!
# Model of the cache of `bulk_properties.py`: `KIntegral`

`__init__` (221-224: the fields `v`, `h`, `w` are `None`), `precompute` (226-254), `integrate_df` (256-297) of a metal.  (For an insulator the
constructor always raises, see `Model/KIntegral`, so lines 298-309 cannot be reached.)

The object is a state: the three cached lists and, to make the work visible, a log of the calls of the band model.  The band model is given
by its two functions, `bands_grad` and `bands_grad_hess`, which need not agree.  The integrand `g` is a function of whole arrays as in the
code and may raise.  Simplified: the selection of a band by `take_along_axis` is an argument of the two functions; real numbers; `g` does not
write to its arguments.
-/

namespace TB.KCache
open TB

abbrev V3 := Fin 3 → ℝ
abbrev M3 := Matrix (Fin 3) (Fin 3) ℝ

/-- A point of a Fermi surface: `k_smpl[i]`, `band_indices[i]`, `weights[i]`. -/
structure Pt where
  k : V3
  band : ℕ
  weight : ℝ

/-- `self.model`: `bands_grad(k)[1][..., band]` and `bands_grad_hess(k)[1:][..., band]`. -/
structure Bands where
  grad : V3 → ℕ → V3
  gradHess : V3 → ℕ → V3 × M3

/-- The data fixed by the constructor: energies with their surfaces, `self.mu` with `self.integration_weights`. -/
structure Setup where
  model : Bands
  surfaces : List (ℝ × List Pt)
  temps : List (ℝ × List ℝ)

/-- The fields `v`, `h`, `w`, and the log: one entry per call of the model, `true` for `bands_grad_hess`. -/
structure Cache where
  v : Option (List (List V3))
  h : Option (List (List M3))
  w : Option (List (List ℝ))
  log : List Bool

/-- After `__init__` (222-224). -/
def fresh : Cache := ⟨none, none, none, []⟩

/-- `np.linalg.norm(v)`. -/
noncomputable def norm (v : V3) : ℝ := Real.sqrt (v 0 ^ 2 + v 1 ^ 2 + v 2 ^ 2)

/-- `weights / (1e-8 + norm(v))`. -/
noncomputable def divide (pts : List Pt) (v : List V3) : List ℝ := List.zipWith (fun p x => p.weight / (1 / 100000000 + norm x)) pts v

/-- One turn of the loop of lines 242-247. -/
noncomputable def stepHess (b : Bands) (c : List (List V3) × List (List M3) × List (List ℝ) × List Bool) (pts : List Pt) :
    List (List V3) × List (List M3) × List (List ℝ) × List Bool :=
  let v := pts.map fun p => (b.gradHess p.k p.band).1
  (c.1 ++ [v], c.2.1 ++ [pts.map fun p => (b.gradHess p.k p.band).2], c.2.2.1 ++ [divide pts v], c.2.2.2 ++ [true])

/-- One turn of the loop of lines 251-254. -/
noncomputable def stepGrad (b : Bands) (c : List (List V3) × List (List ℝ) × List Bool) (pts : List Pt) :
    List (List V3) × List (List ℝ) × List Bool :=
  let v := pts.map fun p => b.grad p.k p.band
  (c.1 ++ [v], c.2.1 ++ [divide pts v], c.2.2 ++ [false])

/-- `precompute` (226-254).  Without hessians `self.h` stays. -/
noncomputable def precompute (s : Setup) (hessians : Bool) (c : Cache) : Cache :=
  if hessians then
    let r := (s.surfaces.map Prod.snd).foldl (stepHess s.model) ([], [], [], c.log)
    ⟨some r.1, some r.2.1, some r.2.2.1, r.2.2.2⟩
  else
    let r := (s.surfaces.map Prod.snd).foldl (stepGrad s.model) ([], [], c.log)
    ⟨some r.1, c.h, some r.2.1, r.2.2⟩

variable {M : Type} [AddCommGroup M] [Module ℝ M]

/-- `np.sum(f_res * self.w[index].reshape(...), axis=0)` with the broadcasting of the first axis. -/
def weightedSum (f : List M) (w : List ℝ) : Except Err M :=
  if f.length = w.length then .ok (List.zipWith (fun x a => a • x) f w).sum
  else
    match f, w with
    | [x], w => .ok (w.map fun a => a • x).sum
    | f, [a] => .ok (f.map fun x => a • x).sum
    | _, _ => .error .valueError

/-- An integrand: energy, velocities, hessians (`none` if not passed), points. -/
abbrev Integrand (M : Type) := ℝ → List V3 → Option (List M3) → List V3 → Except Err (List M)

/-- `self.x[index]`. -/
def item {α : Type} (l : Option (List α)) (i : ℕ) : Except Err α :=
  match l with
  | none => .error .typeError
  | some l => match l[i]? with
    | none => .error .indexError
    | some x => .ok x

/-- The hessians handed to `g`: `self.h[index]` if asked for. -/
def hessArg (hessians : Bool) (c : Cache) (i : ℕ) : Except Err (Option (List M3)) := if hessians then (item c.h i).map some else .ok none

/-- The loop of lines 282-290 from `index` on. -/
def surfaceLoop (g : Integrand M) (hessians : Bool) (c : Cache) : ℕ → List (ℝ × List Pt) → Except Err (List M)
  | _, [] => .ok []
  | i, (e, pts) :: l => do
    let v ← item c.v i
    let h ← hessArg hessians c i
    let f ← g e v h (pts.map Pt.k)
    let w ← item c.w i
    let x ← weightedSum f w
    let r ← surfaceLoop g hessians c (i + 1) l
    pure (x :: r)

/-- `sum(r * w * (e - mu)**a for r, e, w in zip(res, self.e_smpl, w_j))` (297). -/
def momentSum (a : ℕ) (mu : ℝ) : List M → List ℝ → List ℝ → M
  | r :: rs, e :: es, w :: ws => (w * (e - mu) ^ a) • r + momentSum a mu rs es ws
  | _, _, _ => 0

/-- `integrate_df` (256-299): the result and the state afterwards. -/
noncomputable def integrate (s : Setup) (g : Integrand M) (hessians : Bool) (moments : ℤ) (c : Cache) : Except Err (List (List M)) × Cache :=
  if moments < 0 then (.error .assertionError, c)
  else
    let c' := if c.v.isNone || (hessians && c.h.isNone) then precompute s hessians c else c
    ((surfaceLoop g hessians c' 0 s.surfaces).map fun res =>
      (List.range (moments.toNat + 1)).map fun a => s.temps.map fun t => momentSum a t.1 res (s.surfaces.map Prod.fst) t.2, c')

/-- A call of a method of the object. -/
inductive Op (M : Type) where
  | precompute (hessians : Bool)
  | integrate (g : Integrand M) (hessians : Bool) (moments : ℤ)

/-- A program: the results of its `integrate_df` calls in order and the final state.  (An exception does not end the life of the object.) -/
noncomputable def run (s : Setup) : List (Op M) → Cache → List (Except Err (List (List M))) × Cache
  | [], c => ([], c)
  | .precompute hs :: l, c => run s l (precompute s hs c)
  | .integrate g hs m :: l, c =>
    let r := integrate s g hs m c
    let q := run s l r.2
    (r.1 :: q.1, q.2)

end TB.KCache
