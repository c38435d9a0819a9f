import Verif.Model.Plots
import Verif.Props.ObjExport
import Mathlib.Analysis.Matrix.Spectrum
import Mathlib.LinearAlgebra.Matrix.Charpoly.Basic
import Mathlib.Tactic.Linarith
import Mathlib.Tactic.Ring
import Mathlib.Tactic.FieldSimp
import Mathlib.Tactic.Positivity
import Mathlib.Tactic.NormNum

/-!
# C145: what `plot_3D_fermi_surface_to_ax` and `plot_2D_fermi_surface` draw
-/

namespace TB.PropsFermiPlot
open TB TB.FS TB.Plots

/-! ## The samples -/

theorem flatMap_index {α β : Type} (l : List α) (f : α → List β) (N : ℕ) (hf : ∀ x ∈ l, (f x).length = N) (i j : ℕ) (hj : j < N) :
    (l.flatMap f)[i * N + j]? = l[i]?.bind fun x => (f x)[j]? := by
  induction l generalizing i with
  | nil => simp
  | cons a l ih =>
    have ha : (f a).length = N := hf a (by simp)
    rw [List.flatMap_cons]
    cases i with
    | zero => rw [List.getElem?_append_left (by omega)]; simp
    | succ i =>
      have e : (i + 1) * N + j = (f a).length + (i * N + j) := by rw [ha]; ring
      rw [e, List.getElem?_append_right (by omega), Nat.add_sub_cancel_left, ih fun x hx => hf x (by simp [hx])]
      simp

theorem linspace_length (a b : ℝ) (N : ℕ) : (Obj.linspace a b N).length = N := by simp [Obj.linspace]

theorem linspace_get (a b : ℝ) (N i : ℕ) (hi : i < N) : (Obj.linspace a b N)[i]? = some (a + i * ((b - a) / (N - 1))) := by
  simp [Obj.linspace, List.getElem?_range hi]

/-- **C145** The samples: `N³` points of the cube (`N²` of the plane), the point with the indices `(i, j, l)` at the place `(i N + j) N + l` of the list. -/
theorem C145_samples (a b z : ℝ) (N i j l : ℕ) (hi : i < N) (hj : j < N) (hl : l < N) :
    (Obj.grid a b N).length = N * N * N ∧ (plane a b N z).length = N * N ∧
    (Obj.grid a b N)[(i * N + j) * N + l]? =
      some (a + i * ((b - a) / (N - 1)), a + j * ((b - a) / (N - 1)), a + l * ((b - a) / (N - 1))) ∧
    (plane a b N z)[i * N + j]? = some (a + i * ((b - a) / (N - 1)), a + j * ((b - a) / (N - 1)), z) := by
  have h2 : ∀ x : ℝ, ((Obj.linspace a b N).flatMap fun y => (Obj.linspace a b N).map fun z => (x, y, z)).length = N * N := by
    intro x; simp [List.length_flatMap, linspace_length]
  refine ⟨?_, ?_, ?_, ?_⟩
  · simp [Obj.grid, List.length_flatMap, linspace_length, mul_assoc]
  · simp [plane, List.length_flatMap, linspace_length]
  · have e : (i * N + j) * N + l = i * (N * N) + (j * N + l) := by ring
    have hlt : j * N + l < N * N := by nlinarith
    rw [Obj.grid, e, flatMap_index _ _ (N * N) (fun x _ => h2 x) i (j * N + l) hlt, linspace_get a b N i hi, Option.bind_some,
      flatMap_index _ _ N (fun x _ => by simp [linspace_length]) j l hl, linspace_get a b N j hj, Option.bind_some, List.getElem?_map,
      linspace_get a b N l hl]
    rfl
  · rw [plane, flatMap_index _ _ N (fun x _ => by simp [linspace_length]) i j hj, linspace_get a b N i hi, Option.bind_some, List.getElem?_map,
      linspace_get a b N j hj]
    rfl

/-! ## Three dimensions -/

/-- Place in the cube of a point that is given in units of the grid: 0 is the lower, `N - 1` the upper end. -/
noncomputable def place (N : ℕ) (range : ℝ × ℝ) (x : ℝ) : ℝ := range.1 + x * ((range.2 - range.1) / (N - 1))

/-- Centre of a triangle. -/
noncomputable def centre (t : Fin 3 → Fin 3 → ℝ) (a : Fin 3) : ℝ := (t 0 a + t 1 a + t 2 a) / 3

/-- **C145** Drawn are, in order, the bands that cross the Fermi energy, but not more than there are colours, each with all triangles of its surface. -/
theorem C145_bands {n : ℕ} (mc : List ℝ → Except Err (List (Fin 3 → Fin 3 → ℝ))) (mesh : List ℝ → List (Fin 3 → Fin 3 → ℝ)) (colors : ℕ)
    (model : ℝ × ℝ × ℝ → Fin n → ℝ) (eF : ℝ) (N : ℕ) (hN : N ≠ 0) (range : ℝ × ℝ) (hmc : ∀ v, mc v = .ok (mesh v)) :
    ∃ idx : List (Fin n), idx.Pairwise (· < ·) ∧
      (∀ i, i ∈ idx ↔ (∃ k ∈ Obj.grid range.1 range.2 N, model k i < eF) ∧ ∃ k ∈ Obj.grid range.1 range.2 N, eF < model k i) ∧
      plot3D mc colors model eF N range = .ok ((idx.take colors).map fun i =>
        (i.val, (mesh ((Obj.grid range.1 range.2 N).map fun k => model k i - eF)).map (drawn N range))) := by
  obtain ⟨vols, idx, h1, h2, h3, h4⟩ := C41_bands model eF (Obj.grid range.1 range.2 N) (PropsObjExport.grid_ne_nil _ _ N hN)
  refine ⟨idx, h2, h3, ?_⟩
  have hm : ∀ l : List (List ℝ × ℕ), (l.mapM fun x => (mc x.1).map fun t => (x.2, t)) = .ok (l.map fun x => (x.2, mesh x.1)) := by
    intro l
    induction l with
    | nil => rfl
    | cons x l ih => rw [List.mapM_cons, ih, hmc]; rfl
  rw [plot3D, h1]
  simp only [surfaces]
  rw [h4, PropsObjExport.zip_map_map, ← List.map_take, hm]
  simp [Except.map, Function.comp_def]

/-- **C145, disagreement** The triangles are not drawn at their places in the cube: with the `N` samples from one end of the range to the other, the
triangle with the centre `c` belongs to `place N range c`, but the distance of the drawn centre from the lower end is shorter by the factor
`(N - 1) / N`.  So no triangle is at its place, except at the lower end, and nothing is drawn in the last `1 / N` of the range. -/
theorem C145_defect_places (N : ℕ) (hN : 2 ≤ N) (range : ℝ × ℝ) (hr : range.1 < range.2) (t : Fin 3 → Fin 3 → ℝ) (a : Fin 3) :
    centre (drawn N range t) a - range.1 = (N - 1) / N * (place N range (centre t a) - range.1) ∧
    (centre (drawn N range t) a = place N range (centre t a) ↔ centre t a = 0) ∧
    (centre t a ≤ N - 1 → centre (drawn N range t) a ≤ range.2 - (range.2 - range.1) / N) ∧
    (∀ i, drawn N range t i a - centre (drawn N range t) a = 103 / 100 * ((N - 1) / N) * (place N range (t i a) - place N range (centre t a))) := by
  have h2 : (2 : ℝ) ≤ N := by exact_mod_cast hN
  have hN0 : (N : ℝ) ≠ 0 := by linarith
  have hN1 : (N : ℝ) - 1 ≠ 0 := by linarith
  have hd : range.2 - range.1 ≠ 0 := by linarith
  have e : centre (drawn N range t) a = centre t a / N * (range.2 - range.1) + range.1 := by
    simp only [centre, drawn, toRange, enlarge]; ring
  have e2 : place N range (centre t a) - centre (drawn N range t) a = centre t a * (range.2 - range.1) / (N * (N - 1)) := by
    rw [e]; unfold place; field_simp; ring
  refine ⟨?_, ?_, ?_, ?_⟩
  · rw [e]; unfold place; field_simp; ring
  · constructor
    · intro h
      rw [h, sub_self] at e2
      have := (div_eq_zero_iff.1 e2.symm).resolve_right (mul_ne_zero hN0 hN1)
      exact (mul_eq_zero.1 this).resolve_right hd
    · intro h
      have e3 : place N range (centre t a) - centre (drawn N range t) a = 0 := by rw [e2, h]; simp
      linarith
  · intro h
    rw [e]
    have hp : 0 ≤ (range.2 - range.1) / N := div_nonneg (by linarith) (by linarith)
    have e3 : range.2 - (range.2 - range.1) / N = ((N : ℝ) - 1) * ((range.2 - range.1) / N) + range.1 := by field_simp; ring
    have e4 : centre t a / N * (range.2 - range.1) = centre t a * ((range.2 - range.1) / N) := by ring
    rw [e3, e4]
    have := mul_le_mul_of_nonneg_right h hp
    linarith
  · intro i
    rw [e]
    simp only [centre, drawn, toRange, enlarge, place]
    field_simp
    ring

/-- The triangle in the upper plane of the default range is drawn at `1/2 - 1/32` instead of `1/2`. -/
example : centre (drawn 32 (-1 / 2, 1 / 2) fun i a => if a = 0 then 31 else i.val) 0 = 1 / 2 - 1 / 32 ∧
    place 32 (-1 / 2, 1 / 2) (centre (fun i a => if a = 0 then 31 else i.val) 0) = 1 / 2 := by
  constructor
  · simp only [centre, drawn, toRange, enlarge, if_pos]; norm_num
  · simp only [centre, place, if_pos]; norm_num

/-! ## Two dimensions -/

theorem crosses_true (v : List ℝ) : crosses v = true ↔ (∃ x ∈ v, 0 < x) ∧ ∃ x ∈ v, x < 0 := by
  simp [crosses, anyPos, anyNeg]

theorem fold_contours {n : ℕ} (m : ℕ) (vol : Fin n → List ℝ) (l : List (Fin n)) (acc : List Contour) (c : ℕ) :
    (l.foldl (fun (acc : List Contour × ℕ) i =>
      if crosses (vol i) then (acc.1 ++ [⟨vol i, some acc.2, m % 4⟩], acc.2 + 1) else acc) (acc, c)).1 =
    acc ++ ((l.filter fun i => crosses (vol i)).zipIdx c).map fun x => ⟨vol x.1, some x.2, m % 4⟩ := by
  induction l generalizing acc c with
  | nil => simp
  | cons i l ih =>
    rw [List.foldl_cons]
    by_cases h : crosses (vol i) = true
    · simp only [h, if_true]
      rw [ih]
      simp [h, List.zipIdx_cons]
    · simp only [h]
      rw [if_neg (by simp), ih]
      simp [h]

theorem plane_ne_nil (a b z : ℝ) (N : ℕ) (hN : N ≠ 0) : plane a b N z ≠ [] := by
  intro h
  have := (C145_samples a b z N 0 0 0 (by omega) (by omega) (by omega)).2.1
  rw [h] at this
  simp at this
  exact hN this

/-- **C145** Without `accelerate` the contours are those of the bands that cross the Fermi energy in the plane, in order, with the colours 0, 1, 2, …; the
style of the lines tells the models apart. -/
theorem C145_contours (m : ℕ) (model : Model2) (eF : ℝ) (ks : List (ℝ × ℝ × ℝ)) (hk : ks ≠ []) :
    ∃ idx : List (Fin model.bandCount), idx.Pairwise (· < ·) ∧
      (∀ i, i ∈ idx ↔ (∃ k ∈ ks, model.bands k i < eF) ∧ ∃ k ∈ ks, eF < model.bands k i) ∧
      byBands m model eF ks = .ok (idx.zipIdx.map fun x => ⟨ks.map fun k => model.bands k x.1 - eF, some x.2, m % 4⟩) := by
  refine ⟨(List.finRange _).filter fun i => crosses (ks.map fun k => model.bands k i - eF), (List.pairwise_lt_finRange _).filter _, ?_, ?_⟩
  · intro i
    rw [List.mem_filter, crosses_true]
    simp only [List.mem_finRange, true_and, List.mem_map, exists_exists_and_eq_and, sub_pos, sub_neg]
    exact and_comm
  · have := fold_contours m (fun i => ks.map fun k => model.bands k i - eF) (List.finRange _) [] 0
    rw [byBands, if_neg hk]
    exact congrArg Except.ok (by simpa using this)

theorem mapM_ok {α β : Type} (f : α → Except Err β) (g : α → β) (l : List α) (h : ∀ x ∈ l, f x = .ok (g x)) : l.mapM f = .ok (l.map g) := by
  induction l with
  | nil => rfl
  | cons a l ih => rw [List.mapM_cons, h a (by simp), ih fun x hx => h x (by simp [hx])]; rfl

/-- **C145** The planes are drawn one by one; a list of models is drawn model by model, and then `accelerate` is ignored,
as for a model without Hamiltonian.  Without samples there is an `IndexError`. -/
theorem C145_planes (model : Model2) (models : List Model2) (eF : ℝ) (z : List ℝ) (N : ℕ) (hN : N ≠ 0) (range : ℝ × ℝ) (accelerate : Bool) :
    (∃ c : ℝ → List Contour, (∀ z2 ∈ z, byBands 0 model eF (plane range.1 range.2 N z2) = .ok (c z2)) ∧
      plot2D model eF z N range false = .ok (z.map c)) ∧
    (∃ c : ℕ → Model2 → ℝ → List Contour, (∀ i m z2, byBands i m eF (plane range.1 range.2 N z2) = .ok (c i m z2)) ∧
      plot2Ds models eF z N range accelerate = .ok (z.map fun z2 => (models.zipIdx.map fun x => c x.2 x.1 z2).flatten)) ∧
    (∀ z2 zs, plot2D model eF (z2 :: zs) 0 range accelerate = .error .indexError) ∧
    (model.f = none → plot2D model eF z N range true = plot2D model eF z N range false) ∧
    (∀ f, model.f = some f → ∃ c : ℝ → List Contour, (∀ z2 ∈ z, byDet 0 model eF (plane range.1 range.2 N z2) = .ok (c z2)) ∧
      plot2D model eF z N range true = .ok (z.map c)) := by
  have h : ∀ i m z2, ∃ c, byBands i m eF (plane range.1 range.2 N z2) = .ok c := fun i m z2 =>
    let ⟨_, _, _, h⟩ := C145_contours i m eF (plane range.1 range.2 N z2) (plane_ne_nil _ _ _ N hN)
    ⟨_, h⟩
  choose c hc using h
  refine ⟨⟨c 0 model, fun z2 _ => hc 0 model z2, ?_⟩, ⟨c, hc, ?_⟩, ?_, fun hf => by simp [plot2D, hf], ?_⟩
  · exact mapM_ok _ _ _ fun z2 _ => by simpa using hc 0 model z2
  · refine mapM_ok _ _ _ fun z2 _ => ?_
    rw [mapM_ok _ (fun x => c x.2 x.1 z2) _ fun x _ => hc x.2 x.1 z2]
    rfl
  · intro z2 zs
    have e : plane range.1 range.2 0 z2 = [] := by simp [plane, Obj.linspace]
    rw [plot2D, List.mapM_cons, e]
    have hb : byBands 0 model eF [] = .error .indexError := by simp [byBands]
    by_cases ha : (accelerate && model.f.isSome) = true
    · have hd : byDet 0 model eF [] = .error .indexError := by
        obtain ⟨f, hf⟩ := Option.isSome_iff_exists.1 (Bool.and_eq_true_iff.1 ha).2
        simp [byDet, hf]
      rw [if_pos ha, hd]; rfl
    · rw [if_neg ha, hb]; rfl
  · intro f hf
    have h : ∀ z2, ∃ d, byDet 0 model eF (plane range.1 range.2 N z2) = .ok d := by
      intro z2
      simp only [byDet, hf, if_neg (plane_ne_nil range.1 range.2 z2 N hN)]
      exact ⟨_, rfl⟩
    choose d hd using h
    refine ⟨d, fun z2 _ => hd z2, mapM_ok _ _ _ fun z2 _ => ?_⟩
    simpa [hf] using hd z2

/-- The bands are the eigenvalues of the Hamiltonian `f`. -/
def Eigen (model : Model2) (f : ℝ × ℝ × ℝ → Matrix (Fin model.bandCount) (Fin model.bandCount) ℂ) : Prop :=
  ∀ k, ∃ h : (f k).IsHermitian, Multiset.map (model.bands k) Finset.univ.val = Multiset.map h.eigenvalues Finset.univ.val

theorem det_volume {n : ℕ} (A : Matrix (Fin n) (Fin n) ℂ) (h : A.IsHermitian) (E : Fin n → ℝ)
    (hE : Multiset.map E Finset.univ.val = Multiset.map h.eigenvalues Finset.univ.val) (eF : ℝ) :
    (A - (eF : ℂ) • (1 : Matrix (Fin n) (Fin n) ℂ)).det = ((∏ i, (E i - eF) : ℝ) : ℂ) := by
  have e1 : A - (eF : ℂ) • (1 : Matrix (Fin n) (Fin n) ℂ) = -(Matrix.scalar (Fin n) (eF : ℂ) - A) := by
    rw [neg_sub]; congr 1; ext i j; simp [Matrix.scalar_apply, Matrix.diagonal_apply, Matrix.one_apply]
  rw [e1, Matrix.det_neg, ← Matrix.eval_charpoly, h.charpoly_eq, Polynomial.eval_prod]
  have e2 : ∏ i, (E i - eF) = ∏ i, (h.eigenvalues i - eF) := by
    have := congrArg (fun s => (Multiset.map (fun x : ℝ => x - eF) s).prod) hE
    simpa [Multiset.map_map, Function.comp_def, Finset.prod] using this
  rw [e2, Fintype.card_fin]
  have e3 : ((-1 : ℂ)) ^ n = ∏ _i : Fin n, (-1 : ℂ) := by simp
  rw [e3, ← Finset.prod_mul_distrib, Complex.ofReal_prod]
  refine Finset.prod_congr rfl fun i _ => ?_
  simp

/-- **C145** With `accelerate` (and a Hamiltonian) the contour of the product of all energies relative to the Fermi energy is drawn in black, so it passes
where any band is at the Fermi energy.  It is drawn exactly if there are two samples without bands at the Fermi energy, one with an even and one with an
odd number of bands below. -/
theorem C145_accelerated (m : ℕ) (model : Model2) (f : ℝ × ℝ × ℝ → Matrix (Fin model.bandCount) (Fin model.bandCount) ℂ) (hf : model.f = some f)
    (hE : Eigen model f) (eF : ℝ) (ks : List (ℝ × ℝ × ℝ)) (hk : ks ≠ []) :
    ∃ volume : ℝ × ℝ × ℝ → ℝ, (∀ k, volume k = ∏ i, (model.bands k i - eF)) ∧
      (∀ k, volume k = 0 ↔ ∃ i, model.bands k i = eF) ∧
      byDet m model eF ks = .ok (if (∃ k ∈ ks, (∀ i, model.bands k i ≠ eF) ∧ Even (Finset.univ.filter fun i => model.bands k i < eF).card) ∧
          ∃ k ∈ ks, (∀ i, model.bands k i ≠ eF) ∧ Odd (Finset.univ.filter fun i => model.bands k i < eF).card
        then [⟨ks.map volume, none, m % 4⟩] else []) := by
  classical
  have hsign : ∀ {n : ℕ} (E : Fin n → ℝ), (0 < ∏ i, (E i - eF) ↔ (∀ i, E i ≠ eF) ∧ Even (Finset.univ.filter fun i => E i < eF).card) ∧
      (∏ i, (E i - eF) < 0 ↔ (∀ i, E i ≠ eF) ∧ Odd (Finset.univ.filter fun i => E i < eF).card) := by
    intro n E
    have e : ∏ i, (E i - eF) = (-1) ^ (Finset.univ.filter fun i => E i < eF).card * ∏ i, |E i - eF| := by
      rw [← Finset.prod_const, Finset.prod_filter, ← Finset.prod_mul_distrib]
      refine Finset.prod_congr rfl fun i _ => ?_
      by_cases h : E i < eF
      · rw [if_pos h, abs_of_neg (by linarith)]; ring
      · rw [if_neg h, abs_of_nonneg (by linarith), one_mul]
    have hp : 0 ≤ ∏ i, |E i - eF| := Finset.prod_nonneg fun i _ => abs_nonneg _
    have h0 : (∏ i, |E i - eF|) ≠ 0 ↔ ∀ i, E i ≠ eF := by
      rw [Finset.prod_ne_zero_iff]
      simp [sub_eq_zero]
    rw [e, ← h0]
    rcases Nat.even_or_odd (Finset.univ.filter fun i => E i < eF).card with hc | hc
    · rw [hc.neg_one_pow, one_mul]
      refine ⟨⟨fun h => ⟨ne_of_gt h, hc⟩, fun h => lt_of_le_of_ne hp (Ne.symm h.1)⟩, ⟨fun h => absurd h (not_lt.2 hp), fun h => ?_⟩⟩
      exact absurd hc (Nat.not_even_iff_odd.2 h.2)
    · rw [hc.neg_one_pow]
      refine ⟨⟨fun h => by linarith, fun h => absurd h.2 (Nat.not_even_iff_odd.2 hc)⟩, ⟨fun h => ⟨fun h' => by rw [h'] at h; simp at h, hc⟩, fun h => ?_⟩⟩
      have := lt_of_le_of_ne hp (Ne.symm h.1)
      linarith
  refine ⟨fun k => ∏ i, (model.bands k i - eF), fun _ => rfl, fun k => ?_, ?_⟩
  · simp [Finset.prod_eq_zero_iff, sub_eq_zero]
  · have hv : detVolume f eF ks = ks.map fun k => ∏ i, (model.bands k i - eF) := by
      refine List.map_congr_left fun k _ => ?_
      obtain ⟨h, hs⟩ := hE k
      rw [det_volume (f k) h (model.bands k) hs eF, Complex.ofReal_re]
    have hc : crosses (detVolume f eF ks) = true ↔
        (∃ k ∈ ks, (∀ i, model.bands k i ≠ eF) ∧ Even (Finset.univ.filter fun i => model.bands k i < eF).card) ∧
          ∃ k ∈ ks, (∀ i, model.bands k i ≠ eF) ∧ Odd (Finset.univ.filter fun i => model.bands k i < eF).card := by
      rw [crosses_true, hv]
      simp only [List.mem_map, exists_exists_and_eq_and, (hsign _).1, (hsign _).2]
    simp only [byDet, hf, if_neg hk]
    rw [← hv]
    by_cases h : crosses (detVolume f eF ks) = true
    · rw [if_pos h, if_pos (hc.1 h)]
    · rw [if_neg h, if_neg fun h' => h (hc.2 h')]

/-- **C145, disagreement** If every energy occurs an even number of times (as with spin), nothing is drawn with `accelerate`, though the bands may cross the
Fermi energy. -/
theorem C145_defect_degenerate (m : ℕ) (model : Model2) (f : ℝ × ℝ × ℝ → Matrix (Fin model.bandCount) (Fin model.bandCount) ℂ) (hf : model.f = some f)
    (hE : Eigen model f) (eF : ℝ) (ks : List (ℝ × ℝ × ℝ)) (hk : ks ≠ [])
    (hd : ∀ k, ∃ s : Multiset ℝ, Multiset.map (model.bands k) Finset.univ.val = s + s) : byDet m model eF ks = .ok [] := by
  have hv : ∀ v ∈ detVolume f eF ks, 0 ≤ v := by
    intro v hv
    obtain ⟨k, -, rfl⟩ := List.mem_map.1 hv
    obtain ⟨h, hs⟩ := hE k
    rw [det_volume (f k) h (model.bands k) hs eF, Complex.ofReal_re]
    obtain ⟨s, hs⟩ := hd k
    have : ∏ i, (model.bands k i - eF) = (Multiset.map (fun x : ℝ => x - eF) (Multiset.map (model.bands k) Finset.univ.val)).prod := by
      simp [Function.comp_def, Finset.prod]
    rw [this, hs, Multiset.map_add, Multiset.prod_add]
    exact mul_self_nonneg _
  have hc : ¬ crosses (detVolume f eF ks) = true := by
    rw [crosses_true]
    rintro ⟨-, x, hx, h⟩
    exact absurd h (not_lt.2 (hv x hx))
  simp only [byDet, hf, if_neg hk]
  rw [if_neg hc]

/-- Two bands `E = k_x`: a model in which all the conditions hold. -/
noncomputable def twice : Model2 where
  bandCount := 2
  bands := fun k _ => k.1
  f := some fun k => (k.1 : ℂ) • (1 : Matrix (Fin 2) (Fin 2) ℂ)

theorem twice_eigen : Eigen twice fun k => (k.1 : ℂ) • (1 : Matrix (Fin 2) (Fin 2) ℂ) := by
  intro k
  have h : ((k.1 : ℂ) • (1 : Matrix (Fin 2) (Fin 2) ℂ)).IsHermitian := by
    unfold Matrix.IsHermitian
    rw [Matrix.conjTranspose_smul, Matrix.conjTranspose_one]
    simp
  refine ⟨h, ?_⟩
  have hr := h.roots_charpoly_eq_eigenvalues
  have hc : ((k.1 : ℂ) • (1 : Matrix (Fin 2) (Fin 2) ℂ)) = Matrix.diagonal fun _ => (k.1 : ℂ) := by
    ext i j; simp [Matrix.diagonal_apply, Matrix.one_apply]
  have h2 : ((k.1 : ℂ) • (1 : Matrix (Fin 2) (Fin 2) ℂ)).charpoly.roots = Multiset.map (fun _ : Fin 2 => (k.1 : ℂ)) Finset.univ.val := by
    rw [hc, Matrix.charpoly_diagonal, Polynomial.roots_prod]
    · simp
    · simp [Polynomial.X_sub_C_ne_zero]
  rw [h2] at hr
  have := congrArg (Multiset.map Complex.re) hr
  rw [Multiset.map_map, Multiset.map_map] at this
  exact this

/-- Both bands cross in the plane, and are drawn without `accelerate`, but not with it. -/
example : byDet 0 twice 0 [(-1, 0, 0), (1, 0, 0)] = .ok [] ∧ ∃ a b, byBands 0 twice 0 [(-1, 0, 0), (1, 0, 0)] = .ok [a, b] := by
  refine ⟨C145_defect_degenerate 0 twice _ rfl twice_eigen 0 _ (by simp) fun k => ⟨{k.1}, by rfl⟩, ?_⟩
  obtain ⟨idx, h1, h2, h3⟩ := C145_contours 0 twice 0 [(-1, 0, 0), (1, 0, 0)] (by simp)
  have h4 : ∀ i, i ∈ idx := by
    intro i
    rw [h2]
    exact ⟨⟨(-1, 0, 0), by simp, by simp [twice]⟩, ⟨(1, 0, 0), by simp, by simp [twice]⟩⟩
  have h5 : idx.length = 2 := by
    have hn : idx.Nodup := h1.imp ne_of_lt
    have : idx.toFinset = Finset.univ := by ext i; simp [h4 i]
    rw [← List.toFinset_card_of_nodup hn, this]
    rfl
  obtain ⟨a, b, rfl⟩ := List.length_eq_two.1 h5
  exact ⟨_, _, h3⟩

end TB.PropsFermiPlot
