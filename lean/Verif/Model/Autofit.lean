import Verif.Model.Files
import Verif.Model.Logger
import Verif.Model.InitRef

/-!
# Model of `autofit_asym` (tight_binding_asym.py 931-997)

The control flow: the order of the samples, the restarts and the choice of the best start model, the assignment of the first matrix, the
checkpoints and the loop that adds neighbours.  The functions that are called are parameters (`Ops`): `complete_neighbors`, `np.argsort` of
the lengths, `randomize` (one function per call, for the random numbers), `normalize`, `optimize_cg` (modelled in `Optimize.lean`; here with the
logger it fills) and `error`.  `save` is the function of `Files.lean`, the logger is that of `Logger.lean`, `add_neighbors` that of
`Fourier.lean`.  Losses are real numbers; printing and time are not modelled.
-/

namespace TB.Autofit
open Matrix TB.Files

variable {C PO : Type} {d n m : ℕ}

/-- The functions called by `autofit_asym`; `m` reference bands, `n` bands of the model. -/
structure Ops (d n m : ℕ) where
  /-- `sym.complete_neighbors`. -/
  complete : List (RVec d) → Except Err (List (RVec d))
  /-- `np.argsort(np.linalg.norm(k_smpl, axis=-1))`. -/
  order : List (RVec d) → List ℕ
  /-- `tb.randomize(0.01)` in a restart. -/
  randStart : ℕ → Tb d n → Tb d n
  /-- `tb.randomize(sigma)` for a number of neighbours and a repetition. -/
  rand : ℕ → ℕ → ℝ → Tb d n → Tb d n
  /-- `tb.normalize()`. -/
  normalize : Tb d n → Except Err (Tb d n)
  /-- `tb.optimize_cg(k_smpl, ref_bands, band_weights, add_bands_below, iterations, max_cg_iterations=..., log=log)`. -/
  cg : List (RVec d) → List (Fin m → ℝ) → ℕ → ℕ → Tb d n → Logger ℝ → Except Err (Tb d n × Logger ℝ)
  /-- `tb.error(k_smpl, ref_bands, band_weights, add_bands_below)`. -/
  error : Tb d n → List (RVec d) → List (Fin m → ℝ) → Except Err (ℝ × List ℝ)

/-- `a[reorder]` (lines 943-944). -/
def gather {α : Type} (l : List α) (idx : List ℕ) : Except Err (List α) := idx.mapM fun i => InitRef.fetch l[i]?

/-- `n = (j * len(k_smpl) + 9) // 10` (line 961). -/
def chunk (N j : ℕ) : ℕ := (j * N + 9) / 10

/-- `tb.H.H_r[0] = np.diag(row)` (line 957): a matrix with another number of bands is broadcast if it has one entry, otherwise `ValueError`. -/
noncomputable def setFirst (t : Tb d n) (row : Fin m → ℝ) : Except Err (Tb d n) :=
  match t.H.terms with
  | [] => .error .indexError
  | (r, _) :: rest =>
    if h : m = n then .ok { t with H := ⟨(r, diagonal fun i => (row (Fin.cast h.symm i) : ℂ)) :: rest⟩ }
    else if h : m = 1 then .ok { t with H := ⟨(r, Matrix.of fun _ _ => (row (Fin.cast h.symm 0) : ℂ)) :: rest⟩ }
    else .error .valueError

/-- The model of restart `c` before the fits (lines 954-957). -/
noncomputable def startModel (o : Ops d n m) (nbrs : List (RVec d)) (ref : List (Fin m → ℝ)) (c : ℕ) : Except Err (Tb d n) := do
  let H ← mkSeries nbrs (nbrs.map fun _ => 0)
  let t ← mkTb H
  let t ← o.normalize (o.randStart c t)
  let row ← InitRef.fetch ref[0]?
  setFirst t row

/-- The fits with a growing number of samples (lines 960-962). -/
noncomputable def stages (o : Ops d n m) (ks : List (RVec d)) (ref : List (Fin m → ℝ)) : List ℕ → Tb d n → Logger ℝ →
    Except Err (Tb d n × Logger ℝ)
  | [], t, g => .ok (t, g)
  | j :: js, t, g => do
    let r ← o.cg (ks.take (chunk ks.length j)) (ref.take (chunk ks.length j)) 1 10 t g
    stages o ks ref js r.1 r.2

/-- One restart: model and last loss (lines 954-963). -/
noncomputable def restart (o : Ops d n m) (nbrs ks : List (RVec d)) (ref : List (Fin m → ℝ)) (c : ℕ) : Except Err (Tb d n × ℝ) := do
  let t ← startModel o nbrs ref c
  let r ← stages o ks ref (List.range' 1 10) t (Logger.new true false true)
  let l ← r.2.lastLoss
  return (r.1, l)

open Classical in
/-- `if log.last_loss() < best_tb_error` (lines 963-965); `none` stands for `None` and an infinite error. -/
noncomputable def better (best : Option (Tb d n × ℝ)) (new : Tb d n × ℝ) : Option (Tb d n × ℝ) :=
  match best with
  | none => some new
  | some b => if new.2 < b.2 then some new else some b

/-- `for _ in range(restarts)` (lines 952-965). -/
noncomputable def restartLoop (o : Ops d n m) (nbrs ks : List (RVec d)) (ref : List (Fin m → ℝ)) : List ℕ → Option (Tb d n × ℝ) →
    Except Err (Option (Tb d n × ℝ))
  | [], best => .ok best
  | c :: cs, best => do
    let r ← restart o nbrs ks ref c
    restartLoop o nbrs ks ref cs (better best r)

/-- Lines 942-965: the sorted samples and bands, and the best start model. -/
noncomputable def prepare (o : Ops d n m) (src ks : List (RVec d)) (ref : List (Fin m → ℝ)) (start restarts : ℕ) :
    Except Err (List (RVec d) × List (Fin m → ℝ) × Option (Tb d n × ℝ)) := do
  let ks' ← gather ks (o.order ks)
  let ref' ← gather ref (o.order ks)
  let nbrs ← o.complete (src.take (start + 1))
  let best ← restartLoop o nbrs ks' ref' (List.range restarts) none
  return (ks', ref', best)

/-- `f"asym_{name}_{s}.json"` (lines 969, 992). -/
def fileName (name s : Name) : Name := ['a', 's', 'y', 'm', '_'] ++ name ++ ['_'] ++ s ++ dotJson

/-- One repetition up to the checkpoint (lines 987-990). -/
noncomputable def fitOnce (o : Ops d n m) (ks : List (RVec d)) (ref : List (Fin m → ℝ)) (randomize : Bool) (nc i : ℕ) (t : Tb d n)
    (g : Logger ℝ) : Except Err (Tb d n × Logger ℝ) := do
  let l ← g.lastLoss
  let t ← o.normalize (o.rand nc i (l * (if randomize then 1 / 10 else 1 / 100)) t)
  o.cg ks ref 100 5 t g

/-- The repetitions (lines 987-993). -/
noncomputable def fits (o : Ops d n m) (L : Lib C PO) (name : Name) (ks : List (RVec d)) (ref : List (Fin m → ℝ)) (randomize : Bool)
    (nc : ℕ) : List ℕ → World C PO → Tb d n → Logger ℝ → World C PO × Except IOErr (Tb d n × Logger ℝ)
  | [], w, t, g => (w, .ok (t, g))
  | i :: is, w, t, g =>
    match fitOnce o ks ref randomize nc i t g with
    | .error e => (w, raise e)
    | .ok r =>
      match asymSave L w r.1 (fileName name (Nat.repr nc).toList) none with
      | (w', .error e) => (w', .error e)
      | (w', .ok _) => fits o L name ks ref randomize nc is w' r.1 r.2

/-- `tb.H.add_neighbors(sym.complete_neighbors([neighbors_src[neighbors_count]]))` (lines 982-983). -/
noncomputable def extend (o : Ops d n m) (src : List (RVec d)) (nc : ℕ) (t : Tb d n) : Except Err (Tb d n) := do
  let r ← InitRef.fetch src[nc]?
  let new ← o.complete [r]
  match t.H.addNeighbors new with
  | (_, .error e) => .error e
  | (H, .ok _) => .ok { t with H := H }

/-- The loop over the neighbours (lines 980-996); `first` as in line 979. -/
noncomputable def loop (o : Ops d n m) (L : Lib C PO) (name : Name) (src ks : List (RVec d)) (ref : List (Fin m → ℝ)) (randomize : Bool)
    (nc : ℕ) (first : Bool) (w : World C PO) (t : Tb d n) (g : Logger ℝ) : World C PO × Except IOErr (Tb d n) :=
  if nc < src.length then
    if first then
      match fits o L name ks ref randomize nc (List.range (if randomize then 10 else 1)) w t g with
      | (w', .error e) => (w', .error e)
      | (w', .ok r) => loop o L name src ks ref randomize nc false w' r.1 r.2
    else
      match extend o src nc t with
      | .error e => (w, raise e)
      | .ok t' =>
        match fits o L name ks ref randomize (nc + 1) (List.range (if randomize then 10 else 1)) w t' g with
        | (w', .error e) => (w', .error e)
        | (w', .ok r) => loop o L name src ks ref randomize (nc + 1) false w' r.1 r.2
  else (w, .ok t)
termination_by 2 * (src.length - nc) + first.toNat
decreasing_by
  all_goals simp_all
  all_goals omega

/-- Lines 966-997, from the choice of the best start model. -/
noncomputable def afterStart (o : Ops d n m) (L : Lib C PO) (name : Name) (src ks : List (RVec d)) (ref : List (Fin m → ℝ)) (start : ℕ)
    (randomize : Bool) (w : World C PO) : Option (Tb d n × ℝ) → World C PO × Except IOErr (Tb d n)
  | none => (w, raise .assertionError)
  | some b =>
    match asymSave L w b.1 (fileName name ['s', 't', 'a', 'r', 't']) none with
    | (w', .error e) => (w', .error e)
    | (w', .ok _) =>
      match o.error b.1 ks ref with
      | .error e => (w', raise e)
      | .ok le =>
        match (Logger.new true false true).addData 0 le.1 le.2 with
        | (_, .error e) => (w', raise e)
        | (g, .ok _) => loop o L name src ks ref randomize (start + 1) true w' b.1 g

/-- `autofit_asym` (tight_binding_asym.py 931-997). -/
noncomputable def autofit (L : Lib C PO) (w : World C PO) (name : Name) (src ks : List (RVec d)) (ref : List (Fin m → ℝ))
    (start below above : ℤ) (o : Ops d (below.toNat + m + above.toNat) m) (randomize : Bool) (restarts : ℕ) :
    World C PO × Except IOErr (Tb d (below.toNat + m + above.toNat)) :=
  if ¬ (0 ≤ below ∧ 0 ≤ above ∧ 0 ≤ start) then (w, raise .assertionError)
  else match prepare o src ks ref start.toNat restarts with
    | .error e => (w, raise e)
    | .ok p => afterStart o L name src p.1 p.2.1 start.toNat randomize w p.2.2

end TB.Autofit
