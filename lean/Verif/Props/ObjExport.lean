import Mathlib.Tactic.Ring
import Mathlib.Data.List.Perm.Subperm
import Mathlib.Algebra.Order.Ring.Rat
import Verif.Spec.ObjFile
import Verif.Props.FermiSurface

/-!
# C141: the files of `export_3D_fermi_surface`
-/

namespace TB.PropsObjExport
open TB TB.FS TB.Obj TB.Spec.ObjFile

variable {K : Type}

/-! ## Reading parts of a file -/

/-- State of the reader after some lines. -/
def after : List (Line K) → Reader K → Reader K
  | [], r => r
  | .group b :: l, r => after l { r with band := b }
  | .usemtl c :: l, r => after l { r with color := c }
  | .vertex x y z :: l, r => after l { r with verts := r.verts ++ [(x, y, z)] }
  | .face _ :: l, r => after l r
  | .comment :: l, r => after l r
  | .mtllib _ :: l, r => after l r
  | .object _ :: l, r => after l r
  | .smooth :: l, r => after l r

theorem read_append (l l' : List (Line K)) (r : Reader K) : readObj (l ++ l') r = readObj l r ++ readObj l' (after l r) := by
  induction l generalizing r with
  | nil => rfl
  | cons a l ih => cases a <;> simp [readObj, after, ih]

theorem after_append (l l' : List (Line K)) (r : Reader K) : after (l ++ l') r = after l' (after l r) := by
  induction l generalizing r with
  | nil => rfl
  | cons a l ih => cases a <;> simp [after, ih]

/-- The printed coordinates of a vertex. -/
def fmt3 (fmt : K → K) (v : K × K × K) : K × K × K := (fmt v.1, fmt v.2.1, fmt v.2.2)

theorem read_verts (fmt : K → K) (vs : List (K × K × K)) (r : Reader K) :
    readObj (vs.map fun v => Line.vertex (fmt v.1) (fmt v.2.1) (fmt v.2.2)) r = [] ∧
    after (vs.map fun v => Line.vertex (fmt v.1) (fmt v.2.1) (fmt v.2.2)) r = { r with verts := r.verts ++ vs.map (fmt3 fmt) } := by
  induction vs generalizing r with
  | nil => simp [readObj, after]
  | cons v vs ih =>
    simp only [List.map_cons, readObj, after]
    exact ⟨(ih _).1, by rw [(ih _).2]; simp [fmt3]⟩

theorem read_faces (fs : List (List ℕ)) (r : Reader K) :
    readObj (fs.map Line.face) r = fs.map (fun f => ⟨r.band, r.color, f.map (corner r.verts)⟩) ∧ after (fs.map (Line.face (K := K))) r = r := by
  induction fs with
  | nil => simp [readObj, after]
  | cons f fs ih => simp [readObj, after, ih.1, ih.2]

theorem read_surface (fmt : K → K) (index band : ℕ) (m : Mesh K) (r : Reader K) :
    readObj (surfaceLines fmt index band r.verts.length m) r =
      m.faces.map (fun f => ⟨band, index, f.map fun i => (m.verts[i]?).map (fmt3 fmt)⟩) ∧
    after (surfaceLines fmt index band r.verts.length m) r = ⟨r.verts ++ m.verts.map (fmt3 fmt), band, index⟩ := by
  have e : (m.faces.map fun f => Line.face (K := K) (f.map fun i => i + 1 + r.verts.length)) =
      (m.faces.map fun f => f.map fun i => i + 1 + r.verts.length).map Line.face := by simp [Function.comp_def]
  rw [surfaceLines, e]
  simp only [read_append, after_append, (read_verts fmt _ _).1, (read_verts fmt _ _).2, readObj, after, (read_faces _ _).1, (read_faces _ _).2, List.nil_append]
  rw [List.map_map]
  refine ⟨List.map_congr_left fun f _ => ?_, trivial⟩
  simp only [Function.comp, List.map_map]
  congr 1
  refine List.map_congr_left fun i _ => ?_
  change corner _ (i + 1 + r.verts.length) = _
  have : i + 1 + r.verts.length = (r.verts.length + i) + 1 := by omega
  rw [this, corner, List.getElem?_append_right (by omega), Nat.add_sub_cancel_left, List.getElem?_map]

/-- Colours used in a file. -/
def colorsOf (l : List (Line K)) : List ℕ := l.filterMap fun
  | .usemtl c => some c
  | _ => none

theorem colors_surface (fmt : K → K) (index band o : ℕ) (m : Mesh K) : colorsOf (surfaceLines fmt index band o m) = [index] := by
  have h1 : ∀ vs : List (K × K × K), colorsOf (vs.map fun v => Line.vertex (fmt v.1) (fmt v.2.1) (fmt v.2.2)) = [] := by
    intro vs; induction vs with
    | nil => rfl
    | cons v vs ih => simp [colorsOf]
  have h2 : ∀ fs : List (List ℕ), colorsOf (K := K) (fs.map fun f => .face (f.map fun i => i + 1 + o)) = [] := by
    intro vs; induction vs with
    | nil => rfl
    | cons v vs ih => simp [colorsOf]
  have h3 : ∀ a b : List (Line K), colorsOf (a ++ b) = colorsOf a ++ colorsOf b := fun a b => List.filterMap_append
  rw [surfaceLines, h3, h3, h3, h1, h2]
  rfl

/-- The header. -/
def header (file : String) : List (Line K) := [.comment, .mtllib file, .object file, .smooth]

theorem loop_ok (mc : List K → ℕ → Except Err (Mesh K)) (mesh : List K → Mesh K) (fmt : K → K) (N : ℕ) (l : List (List K × ℕ))
    (hmc : ∀ x ∈ l, mc x.1 N = .ok (mesh x.1)) (index : ℕ) (out : List (Line K)) (r : Reader K) :
    ∃ out', loop mc fmt N l index (after out r).verts.length out = (out', .ok ()) ∧
      readObj out' r = readObj out r ++ (l.zipIdx index).flatMap (fun x =>
        (mesh x.1.1).faces.map fun f => ⟨x.1.2, x.2, f.map fun i => ((mesh x.1.1).verts[i]?).map (fmt3 fmt)⟩) ∧
      colorsOf out' = colorsOf out ++ (List.range' index l.length) := by
  induction l generalizing index out with
  | nil => exact ⟨out, rfl, by simp, by simp⟩
  | cons x l ih =>
    obtain ⟨vol, band⟩ := x
    have h1 : mc vol N = .ok (mesh vol) := hmc (vol, band) (by simp)
    have hs := read_surface fmt index band (mesh vol) (after out r)
    obtain ⟨out', h2, h3, h4⟩ := ih (fun x hx => hmc x (by simp [hx])) (index + 1)
      (out ++ surfaceLines fmt index band (after out r).verts.length (mesh vol))
    rw [after_append, hs.2] at h2
    simp only [List.length_append, List.length_map] at h2
    refine ⟨out', ?_, ?_, ?_⟩
    · rw [loop]
      simp only [h1]
      exact h2
    · rw [h3, read_append, hs.1, List.zipIdx_cons, List.flatMap_cons, List.append_assoc]
    · rw [h4]
      have h5 : ∀ a b : List (Line K), colorsOf (a ++ b) = colorsOf a ++ colorsOf b := fun a b => List.filterMap_append
      rw [h5, colors_surface, List.append_assoc, List.length_cons, List.range'_succ]
      rfl

theorem loop_error (mc : List K → ℕ → Except Err (Mesh K)) (fmt : K → K) (N : ℕ) (l l' : List (List K × ℕ)) (vol : List K) (band : ℕ) (e : Err)
    (hmc : ∀ x ∈ l, ∃ m, mc x.1 N = .ok m) (he : mc vol N = .error e) (index vi : ℕ) (out : List (Line K)) :
    loop mc fmt N (l ++ (vol, band) :: l') index vi out = ((loop mc fmt N l index vi out).1, .error e) := by
  induction l generalizing index vi out with
  | nil => simp [loop, he]
  | cons x l ih =>
    obtain ⟨v, b⟩ := x
    obtain ⟨m, hm⟩ := hmc (v, b) (by simp)
    simp only [List.cons_append, loop, hm]
    exact ih (fun x hx => hmc x (by simp [hx])) _ _ _

variable [Field K]

theorem grid_ne_nil (a b : K) (N : ℕ) (hN : N ≠ 0) : grid a b N ≠ [] := by
  obtain ⟨n, rfl⟩ := Nat.exists_eq_succ_of_ne_zero hN
  simp [grid, linspace, List.range_succ_eq_map]

theorem zip_map_map {α β γ : Type} (l : List α) (f : α → β) (g : α → γ) : (l.map f).zip (l.map g) = l.map fun x => (f x, g x) := by
  induction l with
  | nil => rfl
  | cons a l ih => simp [ih]

/-- A file readObj from its start. -/
def reader0 : Reader K := ⟨[], 0, 0⟩

variable [LinearOrder K] [IsStrictOrderedRing K]

/-- The energies of a band on the grid relative to the Fermi energy. -/
def volume {n : ℕ} (model : K × K × K → Fin n → K) (eF : K) (N : ℕ) (range : K × K) (i : Fin n) : List K :=
  (grid range.1 range.2 N).map fun k => model k i - eF

/-- C141.  Reading the file gives back the meshes: for the bands crossing the Fermi energy, in increasing order, all triangles with their
(formatted) corners, in a group named by the band; the `j`-th surface uses the material `j`. -/
theorem C141_meshes {n : ℕ} (mc : List K → ℕ → Except Err (Mesh K)) (mesh : List K → Mesh K) (fmt : K → K) (colors : ℕ) (file : String)
    (model : K × K × K → Fin n → K) (eF : K) (N : ℕ) (hN : N ≠ 0) (range : K × K)
    (hmc : ∀ i, Spec.Crosses model eF (grid range.1 range.2 N) i → mc (volume model eF N range i) N = .ok (mesh (volume model eF N range i))) :
    ∃ idx : List (Fin n), idx.Pairwise (· < ·) ∧ (∀ i, i ∈ idx ↔ Spec.Crosses model eF (grid range.1 range.2 N) i) ∧
      (export_ mc fmt colors file model eF N range).2.2 = .ok () ∧
      readObj (export_ mc fmt colors file model eF N range).2.1 reader0 = idx.zipIdx.flatMap (fun x =>
        (mesh (volume model eF N range x.1)).faces.map fun f =>
          ⟨x.1, x.2, f.map fun v => ((mesh (volume model eF N range x.1)).verts[v]?).map fun p => (fmt p.1, fmt p.2.1, fmt p.2.2)⟩) ∧
      (∀ c, Line.usemtl c ∈ (export_ mc fmt colors file model eF N range).2.1 ↔ c < idx.length) := by
  obtain ⟨vols, idx, h1, h2, h3, h4⟩ := C41_bands model eF (grid range.1 range.2 N) (grid_ne_nil _ _ N hN)
  have hz : vols.zip (idx.map Fin.val) = idx.map fun i => (volume model eF N range i, i.val) := by rw [h4, zip_map_map]; rfl
  obtain ⟨out', h5, h6, h7⟩ := loop_ok mc mesh fmt N (vols.zip (idx.map Fin.val)) (by
    rw [hz]
    intro x hx
    obtain ⟨i, hi, rfl⟩ := List.mem_map.1 hx
    exact hmc i ((h3 i).1 hi)) 0 (header file) reader0
  have e : export_ mc fmt colors file model eF N range = (List.range colors, out', .ok ()) := by
    rw [export_, h1]
    exact congrArg (Prod.mk _) h5
  rw [e]
  refine ⟨idx, h2, h3, rfl, ?_, ?_⟩
  · change readObj out' reader0 = _
    rw [h6, hz]
    simp only [header, readObj, List.nil_append, List.zipIdx_map, List.flatMap_map]
    rfl
  · intro c
    have hm : Line.usemtl c ∈ out' ↔ c ∈ colorsOf out' := by
      simp only [colorsOf, List.mem_filterMap]
      constructor
      · exact fun h => ⟨_, h, rfl⟩
      · rintro ⟨a, ha, h⟩
        cases a <;> simp at h
        rwa [h] at ha
    change Line.usemtl c ∈ out' ↔ _
    rw [hm, h7, hz]
    simp [header, colorsOf]

/-- C141.  The exceptions: without grid points `IndexError` after the header; if the surface of a band cannot be computed, its exception,
and the file contains the surfaces before. -/
theorem C141_exceptions {n : ℕ} (mc : List K → ℕ → Except Err (Mesh K)) (mesh : List K → Mesh K) (fmt : K → K) (colors : ℕ) (file : String)
    (model : K × K × K → Fin n → K) (eF : K) (N : ℕ) (range : K × K) :
    (export_ mc fmt colors file model eF 0 range = (List.range colors, [.comment, .mtllib file, .object file, .smooth], .error .indexError)) ∧
    (∀ (i : Fin n) (e : Err), N ≠ 0 → Spec.Crosses model eF (grid range.1 range.2 N) i → mc (volume model eF N range i) N = .error e →
      (∀ j < i, Spec.Crosses model eF (grid range.1 range.2 N) j → mc (volume model eF N range j) N = .ok (mesh (volume model eF N range j))) →
      (export_ mc fmt colors file model eF N range).2.2 = .error e ∧
      ∃ idx : List (Fin n), idx.Pairwise (· < ·) ∧ (∀ j, j ∈ idx ↔ j < i ∧ Spec.Crosses model eF (grid range.1 range.2 N) j) ∧
        readObj (export_ mc fmt colors file model eF N range).2.1 reader0 = idx.zipIdx.flatMap (fun x =>
          (mesh (volume model eF N range x.1)).faces.map fun f =>
            ⟨x.1, x.2, f.map fun v => ((mesh (volume model eF N range x.1)).verts[v]?).map fun p => (fmt p.1, fmt p.2.1, fmt p.2.2)⟩)) := by
  refine ⟨rfl, fun i e hN hi he hj => ?_⟩
  obtain ⟨vols, idx, h1, h2, h3, h4⟩ := C41_bands model eF (grid range.1 range.2 N) (grid_ne_nil _ _ N hN)
  obtain ⟨s, t, rfl⟩ := List.append_of_mem ((h3 i).2 hi)
  have hz : vols.zip ((s ++ i :: t).map Fin.val) = (s.map fun i => (volume model eF N range i, i.val)) ++ (volume model eF N range i, i.val) ::
      (t.map fun i => (volume model eF N range i, i.val)) := by
    rw [h4, zip_map_map, List.map_append, List.map_cons]; rfl
  rw [List.pairwise_append] at h2
  obtain ⟨hs, hit, hst⟩ := h2
  have hsi : ∀ j ∈ s, j < i := fun j hj => hst j hj i (by simp)
  have hsm : ∀ x ∈ s.map (fun i => (volume model eF N range i, i.val)), mc x.1 N = .ok (mesh x.1) := by
    intro x hx
    obtain ⟨j, hjs, rfl⟩ := List.mem_map.1 hx
    exact hj j (hsi j hjs) ((h3 j).1 (by simp [hjs]))
  obtain ⟨out', h5, h6, h7⟩ := loop_ok mc mesh fmt N _ hsm 0 (header file) reader0
  have e' : export_ mc fmt colors file model eF N range = (List.range colors, out', .error e) := by
    rw [export_, h1]
    simp only []
    rw [hz, loop_error mc fmt N _ _ _ _ e (fun x hx => ⟨_, hsm x hx⟩) he]
    exact congrArg (fun z => (List.range colors, Prod.fst z, Except.error e)) h5
  rw [e']
  refine ⟨rfl, s, hs, fun j => ?_, ?_⟩
  · constructor
    · exact fun h => ⟨hsi j h, (h3 j).1 (by simp [h])⟩
    · rintro ⟨h, h'⟩
      have := (h3 j).2 h'
      rw [List.mem_append, List.mem_cons] at this
      rcases this with h | h | h
      · exact h
      · exact absurd h (ne_of_lt ‹j < i›)
      · exact absurd ((List.pairwise_cons.1 hit).1 j h) (not_lt.2 (le_of_lt ‹j < i›))
  · change readObj out' reader0 = _
    rw [h6]
    simp only [header, readObj, List.nil_append, List.zipIdx_map, List.flatMap_map]
    rfl

/-- C141.  The `.mtl` file defines one material per colour of matplotlib.  A surface without material is written exactly if more bands cross
the Fermi energy than there are colours. -/
theorem C141_defect_materials {n : ℕ} (mc : List K → ℕ → Except Err (Mesh K)) (mesh : List K → Mesh K) (fmt : K → K) (colors : ℕ) (file : String)
    (model : K × K × K → Fin n → K) (eF : K) (N : ℕ) (hN : N ≠ 0) (range : K × K)
    (hmc : ∀ i, Spec.Crosses model eF (grid range.1 range.2 N) i → mc (volume model eF N range i) N = .ok (mesh (volume model eF N range i))) :
    (∃ c, Line.usemtl c ∈ (export_ mc fmt colors file model eF N range).2.1 ∧ c ∉ (export_ mc fmt colors file model eF N range).1) ↔
      ∃ idx : List (Fin n), idx.Nodup ∧ (∀ i ∈ idx, Spec.Crosses model eF (grid range.1 range.2 N) i) ∧ colors < idx.length := by
  obtain ⟨idx, h1, h2, -, -, h5⟩ := C141_meshes mc mesh fmt colors file model eF N hN range hmc
  have hm : ∀ c, c ∉ (export_ mc fmt colors file model eF N range).1 ↔ colors ≤ c := by
    intro c
    change c ∉ List.range colors ↔ _
    simp
  constructor
  · rintro ⟨c, h, h'⟩
    exact ⟨idx, h1.imp fun h => ne_of_lt h, fun i hi => (h2 i).1 hi, lt_of_le_of_lt ((hm c).1 h') ((h5 c).1 h)⟩
  · rintro ⟨l, hl, hl', hlen⟩
    refine ⟨colors, (h5 _).2 (lt_of_lt_of_le hlen ?_), (hm _).2 le_rfl⟩
    exact (List.subperm_of_subset hl fun i hi => (h2 i).2 (hl' i hi)).length_le

omit [LinearOrder K] [IsStrictOrderedRing K] in
theorem linspace_affine (s t a b : K) (N : ℕ) : linspace (s * a + t) (s * b + t) N = (linspace a b N).map fun x => s * x + t := by
  simp only [linspace, List.map_map, Function.comp_def]
  refine List.map_congr_left fun i _ => ?_
  rw [show s * b + t - (s * a + t) = s * (b - a) by ring, mul_div_assoc]
  ring

omit [LinearOrder K] [IsStrictOrderedRing K] in
theorem grid_affine (s t a b : K) (N : ℕ) :
    grid (s * a + t) (s * b + t) N = (grid a b N).map fun k => (s * k.1 + t, s * k.2.1 + t, s * k.2.2 + t) := by
  simp only [grid, linspace_affine, List.flatMap_map, List.map_flatMap, List.map_map, Function.comp_def]

omit [IsStrictOrderedRing K] in
/-- C141.  The coordinates are numbers of grid points and not of k-space: bands that are moved and scaled, exported on the range moved and
scaled in the same way, give the same files. -/
theorem C141_defect_units {n : ℕ} (mc : List K → ℕ → Except Err (Mesh K)) (fmt : K → K) (colors : ℕ) (file : String)
    (model model' : K × K × K → Fin n → K) (eF : K) (N : ℕ) (range : K × K) (s t : K)
    (h : ∀ x y z, model' (s * x + t, s * y + t, s * z + t) = model (x, y, z)) :
    export_ mc fmt colors file model' eF N (s * range.1 + t, s * range.2 + t) = export_ mc fmt colors file model eF N range := by
  have key : fermiSurface model' eF (grid (s * range.1 + t) (s * range.2 + t) N) = fermiSurface model eF (grid range.1 range.2 N) := by
    rw [grid_affine]
    generalize grid range.1 range.2 N = ks
    cases ks with
    | nil => rfl
    | cons k ks =>
      simp only [fermiSurface, List.map_cons, List.map_map, Function.comp_def, h]
  simp only [export_, key]

/-- One band `x` on a grid of two points per axis, a mesh of one triangle, written after nothing else. -/
example : let mc : List ℚ → ℕ → Except Err (Mesh ℚ) := fun _ _ => .ok ⟨[(1 / 2, 0, 0), (1 / 2, 1, 0), (1 / 2, 0, 1)], [[0, 1, 2]]⟩
    (readObj (export_ mc id 10 "f" (fun k (i : Fin 2) => k.1 + (i : ℕ) / 10) 0 2 (-1 / 2, 1 / 2)).2.1 reader0).map (fun t => ((t.band, t.color), t.corners)) =
      [((0, 0), [some (1 / 2, 0, 0), some (1 / 2, 1, 0), some (1 / 2, 0, 1)]), ((1, 1), [some (1 / 2, 0, 0), some (1 / 2, 1, 0), some (1 / 2, 0, 1)])] := by
  intro mc
  decide +kernel

/-- Two surfaces, one colour. -/
example : let mc : List ℚ → ℕ → Except Err (Mesh ℚ) := fun _ _ => .ok ⟨[(1 / 2, 0, 0), (1 / 2, 1, 0), (1 / 2, 0, 1)], [[0, 1, 2]]⟩
    ∃ c, Line.usemtl c ∈ (export_ mc id 1 "f" (fun k (i : Fin 2) => k.1 + (i : ℕ) / 10) 0 2 (-1 / 2, 1 / 2)).2.1 ∧
      c ∉ (export_ mc id 1 "f" (fun k (i : Fin 2) => k.1 + (i : ℕ) / 10) 0 2 (-1 / 2, 1 / 2)).1 := by
  intro mc
  refine (C141_defect_materials mc (fun _ => ⟨[(1 / 2, 0, 0), (1 / 2, 1, 0), (1 / 2, 0, 1)], [[0, 1, 2]]⟩) id 1 "f" _ 0 2 (by omega) _ fun _ _ => rfl).2
    ⟨[0, 1], by decide, ?_, by decide⟩
  intro i _
  have : ∀ i : Fin 2, Spec.Crosses (fun (k : ℚ × ℚ × ℚ) (i : Fin 2) => k.1 + (i : ℕ) / 10) 0 (grid (-1 / 2) (1 / 2) 2) i := by
    intro i
    refine ⟨⟨(-1 / 2, -1 / 2, -1 / 2), by decide +kernel, ?_⟩, (1 / 2, -1 / 2, -1 / 2), by decide +kernel, ?_⟩ <;> revert i <;> decide +kernel
  exact this i

end TB.PropsObjExport
