import Verif.Model.BandStructure

/-!
# Model of the arrays shared by objects of `BandStructureModel` (bandstructure.py 57-95, 104-116, 809-821, 886-906)

The other models of this class treat an object as a value.  Here objects hold references to the arrays `neighbors` and `params`, which live on a heap; the coefficient
functions are closures over the same array `neighbors`.  An object is named by its index in the order of creation.  Objects which do not exist are ignored.
Only default tight binding models (`init_tight_binding`) of a fixed number of bands are modelled; the matrices of the symmetry are never written.
-/

namespace TB.Share
open Matrix TB TB.BS

variable {d n : ℕ}

/-- The content of an array `params`: the first matrix and the others. -/
abbrev Params (n : ℕ) := CMat n × List (CMat n)

/-- An object: `sym.S`, `sym.inversion`, `cos_reduced`, `exp`, `symmetrizer` and the addresses of `neighbors` and `params` (67-76). -/
structure Obj (d n : ℕ) where
  S : List (Matrix (Fin d) (Fin d) ℝ)
  inversion : Bool
  cosReduced : Bool
  exp : Bool
  symmetrizer : Option (Params n → Params n)
  nb : ℕ
  pr : ℕ

/-- All arrays and objects; an address is the index of an array. -/
structure Heap (d n : ℕ) where
  nbs : List (List (RVec d))
  prs : List (Params n)
  objs : List (Obj d n)

/-- No objects. -/
def empty : Heap d n := ⟨[], [], []⟩

/-- The content of the object `o`: what its methods compute with. -/
def Heap.read (h : Heap d n) (o : Obj d n) : BSM d n :=
  ⟨.tb ⟨o.S, o.inversion, h.nbs.getD o.nb [], o.cosReduced, o.exp⟩, (h.prs.getD o.pr (0, [])).1, (h.prs.getD o.pr (0, [])).2, o.symmetrizer⟩

/-- The contents of all objects. -/
def Heap.view (h : Heap d n) : List (BSM d n) := h.objs.map h.read

/-- `copy` (82-94): the array `params` is copied, `neighbors` is the same array. -/
def Heap.copy (h : Heap d n) (o : Obj d n) : Heap d n :=
  ⟨h.nbs, h.prs ++ [h.prs.getD o.pr (0, [])], h.objs ++ [{ o with pr := h.prs.length }]⟩

/-- A statement of a program. -/
inductive Op (d n : ℕ) where
  /-- `BandStructureModel.init_tight_binding` -/
  | init (t : TBData d)
  | copy (i : ℕ)
  /-- `model + c` -/
  | shift (i : ℕ) (c : ℝ)
  /-- `model * c` -/
  | mul (i : ℕ) (c : ℝ)
  /-- a method which writes into `self.params` (`randomize`, `permute`, `normalize`, the optimisers) -/
  | write (i : ℕ) (F : Params n → Params n)
  /-- a method which assigns a new array to `self.params` (`set_params_complex`, `symmetrizer`, the optimisers) -/
  | assign (i : ℕ) (F : Params n → Params n)
  | transform (i : ℕ) (A : Matrix (Fin d) (Fin d) ℝ)

/-- One statement. -/
noncomputable def Heap.step (h : Heap d n) : Op d n → Heap d n
  -- lines 105-116: `np.array(neighbors)` is a new array
  | .init t => match BS.init t n with
    | .ok b => ⟨h.nbs ++ [t.neighbors], h.prs ++ [(b.P0, b.Ps)], h.objs ++ [⟨t.S, t.inversion, t.cosReduced, t.exp, none, h.nbs.length, h.prs.length⟩]⟩
    | .error _ => h
  | .copy i => match h.objs[i]? with
    | some o => h.copy o
    | none => h
  -- lines 899-901: `res.params[0] += ...` on the copy
  | .shift i c => match h.objs[i]? with
    | some o => { h.copy o with prs := (h.copy o).prs.modify h.prs.length fun p => (p.1 + (c : ℂ) • 1, p.2) }
    | none => h
  -- lines 904-906: `res.params *= fac` on the copy
  | .mul i c => match h.objs[i]? with
    | some o => { h.copy o with prs := (h.copy o).prs.modify h.prs.length fun p => ((c : ℂ) • p.1, p.2.map fun P => (c : ℂ) • P) }
    | none => h
  | .write i F => match h.objs[i]? with
    | some o => { h with prs := h.prs.modify o.pr F }
    | none => h
  | .assign i F => match h.objs[i]? with
    | some o => { h with prs := h.prs ++ [F (h.prs.getD o.pr (0, []))], objs := h.objs.set i { o with pr := h.prs.length } }
    | none => h
  -- line 821: `self.neighbors[:] = ...`
  | .transform i A => match h.objs[i]? with
    | some o => { h with nbs := h.nbs.modify o.nb fun l => l.map fun r => A.mulVec r }
    | none => h

/-- A program. -/
noncomputable def Heap.run (h : Heap d n) (ops : List (Op d n)) : Heap d n := ops.foldl Heap.step h

end TB.Share
