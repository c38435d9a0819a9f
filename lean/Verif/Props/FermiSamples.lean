import Verif.Model.FermiSamples
import Mathlib.Tactic.Linarith
import Mathlib.Tactic.Ring
import Mathlib.Tactic.FieldSimp
import Mathlib.Tactic.NormNum
import Mathlib.Tactic.Positivity
import Mathlib.Tactic.FinCases
import Mathlib.LinearAlgebra.Matrix.Notation
import Mathlib.Tactic.LinearCombination
import Mathlib.LinearAlgebra.CrossProduct
import Mathlib.Algebra.BigOperators.Group.List.Lemmas

/-!
# C118: `DensityOfStates.fermi_surface_samples` and the coordinates of `CubesSmearing.samples`
-/

namespace TB.FermiSamples
open Matrix

/-- Sum of the weights of the entries with band index `i`. -/
def Spec.bandSum (idx : List ℕ) (w : List ℝ) (i : ℕ) : ℝ := (((idx.zip w).filter fun p => p.1 == i).map Prod.snd).sum

/-- The band `i` is affine: value `c + g·x`, constant gradient `g`. -/
def Spec.Affine (model : V3 → ℕ → ℝ) (gr : V3 → ℕ → ℝ × V3) (i : ℕ) (c : ℝ) (g : V3) : Prop :=
  ∀ x, model x i = c + g ⬝ᵥ x ∧ gr x i = (c + g ⬝ᵥ x, g)

/-- The options for `normalize`. -/
def Spec.Option (s : Option String) : Prop := s = none ∨ s = some "band" ∨ s = some "total"

/-! ## Lemmas on lists -/

theorem zip_flatMap {α β γ : Type} (l : List α) (f : α → List β) (g : α → List γ) (h : ∀ a ∈ l, (f a).length = (g a).length) :
    (l.flatMap f).zip (l.flatMap g) = l.flatMap fun a => (f a).zip (g a) := by
  induction l with
  | nil => rfl
  | cons a l ih =>
    rw [List.flatMap_cons, List.flatMap_cons, List.flatMap_cons, List.zip_append (h a (by simp)), ih fun b hb => h b (List.mem_cons_of_mem _ hb)]

theorem sum_flatMap {α : Type} (l : List α) (f : α → List ℝ) : (l.flatMap f).sum = (l.map fun a => (f a).sum).sum := by
  induction l with
  | nil => rfl
  | cons a l ih => rw [List.flatMap_cons, List.sum_append, ih, List.map_cons, List.sum_cons]

theorem sum_map_div (l : List ℝ) (c : ℝ) : (l.map fun x => x / c).sum = l.sum / c := by
  induction l with
  | nil => simp
  | cons a l ih => rw [List.map_cons, List.sum_cons, ih, List.sum_cons, add_div]

theorem sum_map_mul_right' {α : Type} (l : List α) (f : α → ℝ) (c : ℝ) : (l.map fun x => f x * c).sum = (l.map f).sum * c := by
  induction l with
  | nil => simp
  | cons a l ih => rw [List.map_cons, List.sum_cons, ih, List.map_cons, List.sum_cons, add_mul]

theorem filter_zip_replicate (n i j : ℕ) (w : List ℝ) (h : w.length = n) :
    (((List.replicate n j).zip w).filter fun p => p.1 == i).map Prod.snd = if j = i then w else [] := by
  subst h
  induction w with
  | nil => simp
  | cons x w ih =>
    rw [List.length_cons, List.replicate_succ, List.zip_cons_cons, List.filter_cons]
    by_cases hij : j = i
    · rw [if_pos hij] at ih ⊢
      rw [if_pos (by simpa using hij), List.map_cons, ih]
    · rw [if_neg hij] at ih ⊢
      rw [if_neg (by simpa using hij), ih]

variable {o : Obj} {e : ℝ} {ip iw bg : Bool} {nrm : Option String}

theorem cut_mem (i : ℕ) : i ∈ o.cut e ↔ ∃ r, o.ranges[i]? = some r ∧ r.1 < e ∧ e < r.2 := by
  unfold Obj.cut
  rw [List.mem_map]
  constructor
  · rintro ⟨⟨r, j⟩, h1, rfl⟩
    rw [List.mem_filter, List.mem_zipIdx_iff_getElem?] at h1
    exact ⟨r, h1.1, by simpa using h1.2⟩
  · rintro ⟨r, h1, h2⟩
    exact ⟨(r, i), by rw [List.mem_filter, List.mem_zipIdx_iff_getElem?]; exact ⟨h1, by simpa using h2⟩, rfl⟩

theorem cut_sorted : (o.cut e).Pairwise (· < ·) := by
  unfold Obj.cut
  rw [List.pairwise_map]
  refine List.Pairwise.filter _ ?_
  have : (o.ranges.zipIdx.map Prod.snd).Pairwise (· < ·) := by
    rw [List.zipIdx_map_snd, ← List.range_eq_range']
    exact List.pairwise_lt_range
  rwa [List.pairwise_map] at this

theorem improve_w (model : V3 → ℕ → ℝ) (i : ℕ) (s : Smpl) : (o.improve model e ip i s).w = s.w * (o.detA / o.vol) := by
  unfold Obj.improve
  simp only
  split
  · split <;> rfl
  · rfl

theorem bandWeights_length (a b : Bool) (l : List Smpl) : (bandWeights a b l).length = l.length := by
  unfold bandWeights
  simp only
  split <;> split <;> simp

/-- The bands with their improved samples. -/
noncomputable def bandsOf (o : Obj) (model : V3 → ℕ → ℝ) (e : ℝ) (ip : Bool) : List (ℕ × List Smpl) :=
  (o.cut e).map fun i => (i, (o.samples i e).map (o.improve model e ip i))

/-- `points` before the last step. -/
noncomputable def pts (b : List (ℕ × List Smpl)) : List V3 := b.flatMap fun b => b.2.map Smpl.x
/-- `band_indices`. -/
def ids (b : List (ℕ × List Smpl)) : List ℕ := b.flatMap fun b => List.replicate b.2.length b.1
/-- `weights`. -/
noncomputable def wts (b : List (ℕ × List Smpl)) (bg iw : Bool) (nrm : Option String) : List ℝ :=
  b.flatMap fun b => bandWeights (bg && !iw) (nrm == some "band") b.2
/-- `total_area`. -/
noncomputable def tot (b : List (ℕ × List Smpl)) : ℝ := (b.map fun b => (b.2.map Smpl.w).sum).sum

theorem plain (model : V3 → ℕ → ℝ) (hm : o.model = some model) (hn : Spec.Option nrm) :
    o.fermiSamples e ip false bg nrm = .ok (pts (bandsOf o model e ip), ids (bandsOf o model e ip),
      if nrm = some "total" then (wts (bandsOf o model e ip) bg false nrm).map fun x => x / tot (bandsOf o model e ip)
      else wts (bandsOf o model e ip) bg false nrm, tot (bandsOf o model e ip)) := by
  unfold Obj.fermiSamples
  rw [hm]
  simp only
  rw [if_neg (show ¬ ¬ (nrm = none ∨ nrm = some "band" ∨ nrm = some "total") from not_not.2 hn), if_neg (by simp)]
  rfl

theorem better (model : V3 → ℕ → ℝ) (hm : o.model = some model) (hn : Spec.Option nrm) (gr : V3 → ℕ → ℝ × V3) (hg : o.grad = some gr)
    (hb : nrm ≠ some "band") :
    ∃ w, o.fermiSamples e ip true bg nrm = .ok (List.zipWith (fun x (r : ℝ × V3) => newton x r.2 r.1) (pts (bandsOf o model e ip))
      (List.zipWith (fun x i => gr x i) (pts (bandsOf o model e ip)) (ids (bandsOf o model e ip))), ids (bandsOf o model e ip), w,
      tot (bandsOf o model e ip)) ∧
      ∃ w', w'.length = w.length ∧ w = (if nrm = some "total" then w'.map fun x => x / w'.sum else w') := by
  unfold Obj.fermiSamples
  rw [hm, hg]
  simp only
  rw [if_neg (show ¬ ¬ (nrm = none ∨ nrm = some "band" ∨ nrm = some "total") from not_not.2 hn), if_pos (by simp), if_neg hb]
  refine ⟨_, rfl, _, ?_, rfl⟩
  split <;> simp

theorem zip_pts_ids (b : List (ℕ × List Smpl)) : (pts b).zip (ids b) = b.flatMap fun b => (b.2.map fun s => (s.x, b.1)) := by
  unfold pts ids
  rw [zip_flatMap _ _ _ (by simp)]
  refine List.flatMap_congr fun a _ => ?_
  induction a.2 with
  | nil => rfl
  | cons x l ih => rw [List.map_cons, List.length_cons, List.replicate_succ, List.zip_cons_cons, ih, List.map_cons]

theorem mem_bands {model : V3 → ℕ → ℝ} {p : V3} {i : ℕ} (h : (p, i) ∈ (pts (bandsOf o model e ip)).zip (ids (bandsOf o model e ip))) :
    i ∈ o.cut e ∧ ∃ s ∈ o.samples i e, p = (o.improve model e ip i s).x := by
  rw [zip_pts_ids] at h
  obtain ⟨b, hb, h⟩ := List.mem_flatMap.1 h
  obtain ⟨i', hi', rfl⟩ := List.mem_map.1 hb
  simp only [List.map_map, List.mem_map, Function.comp, Prod.mk.injEq] at h
  obtain ⟨s, hs, h1, rfl⟩ := h
  exact ⟨hi', s, hs, h1.symm⟩

theorem tot_eq (model : V3 → ℕ → ℝ) : tot (bandsOf o model e ip) =
    ((o.cut e).map fun i => ((o.samples i e).map Smpl.w).sum).sum * (o.detA / o.vol) := by
  unfold tot bandsOf
  rw [List.map_map, ← sum_map_mul_right']
  congr 1
  refine List.map_congr_left fun i _ => ?_
  simp only [Function.comp, List.map_map]
  rw [← sum_map_mul_right']
  congr 1
  exact List.map_congr_left fun s _ => improve_w model i s

theorem newton_affine (c : ℝ) (g x : V3) (E b : ℝ) :
    c + g ⬝ᵥ newton x g b - E = c + g ⬝ᵥ x - E - b * ((∑ a, g a ^ 2) / (1 / 10 ^ 20 + ∑ a, g a ^ 2)) := by
  simp only [newton, dotProduct, Fin.sum_univ_three]
  ring

theorem pos_den (g : V3) : 0 < 1 / 10 ^ 20 + ∑ a, g a ^ 2 := by
  have : 0 ≤ ∑ a, g a ^ 2 := Finset.sum_nonneg fun a _ => sq_nonneg _
  positivity

theorem newton_res (c : ℝ) (g x : V3) (E F : ℝ) :
    c + g ⬝ᵥ newton x g (c + g ⬝ᵥ x - F) - E = F - E + (c + g ⬝ᵥ x - F) * (1 / 10 ^ 20 / (1 / 10 ^ 20 + ∑ a, g a ^ 2)) := by
  rw [newton_affine]
  have := (pos_den g).ne'
  field_simp
  ring

/-! ## Theorems -/

/-- **C118.** `AssertionError` without a model or for another value of `normalize`, `NotImplementedError` for `improved_weights` without
`bands_grad` or with `normalize="band"`; otherwise the call returns. -/
theorem C118_errors (o : Obj) (e : ℝ) (ip iw bg : Bool) (nrm : Option String) :
    (o.model = none ∨ ¬ Spec.Option nrm → o.fermiSamples e ip iw bg nrm = .error .assertionError) ∧
    (o.model ≠ none → Spec.Option nrm →
      (iw = true ∧ (o.grad = none ∨ nrm = some "band") → o.fermiSamples e ip iw bg nrm = .error .notImplemented) ∧
      (¬ (iw = true ∧ (o.grad = none ∨ nrm = some "band")) → ∃ r, o.fermiSamples e ip iw bg nrm = .ok r)) := by
  constructor
  · intro h
    unfold Obj.fermiSamples
    cases hm : o.model with
    | none => rfl
    | some model =>
      simp only
      rw [if_pos (show ¬ (nrm = none ∨ nrm = some "band" ∨ nrm = some "total") from h.resolve_left (by rw [hm]; simp))]
  · intro h1 h2
    obtain ⟨model, hm⟩ := Option.ne_none_iff_exists'.1 h1
    constructor
    · rintro ⟨rfl, h3⟩
      unfold Obj.fermiSamples
      rw [hm]
      simp only
      rw [if_neg (show ¬ ¬ (nrm = none ∨ nrm = some "band" ∨ nrm = some "total") from not_not.2 h2), if_pos (by simp)]
      cases hg : o.grad with
      | none => rfl
      | some gr =>
        simp only
        rw [if_pos (h3.resolve_left (by rw [hg]; simp))]
    · intro h3
      cases iw with
      | false => exact ⟨_, plain model hm h2⟩
      | true =>
        push Not at h3
        obtain ⟨h4, h5⟩ := h3 rfl
        obtain ⟨gr, hg⟩ := Option.ne_none_iff_exists'.1 h4
        obtain ⟨w, hw, -⟩ := better (e := e) (ip := ip) (bg := bg) model hm h2 gr hg h5
        exact ⟨_, hw⟩

/-- **C118.** Without `improved_weights` there is one point, index and weight per sample; the indices are those of bands with the energy inside
their range, ascending. -/
theorem C118_bands (h : ∃ m, o.model = some m) (hn : Spec.Option nrm) : ∃ P I W T, o.fermiSamples e ip false bg nrm = .ok (P, I, W, T) ∧
    P.length = I.length ∧ W.length = I.length ∧ I.Pairwise (· ≤ ·) ∧
    ∀ i, I.count i = if ∃ r, o.ranges[i]? = some r ∧ r.1 < e ∧ e < r.2 then (o.samples i e).length else 0 := by
  obtain ⟨model, hm⟩ := h
  refine ⟨_, _, _, _, plain model hm hn, ?_, ?_, ?_, ?_⟩
  · unfold pts ids
    rw [List.length_flatMap, List.length_flatMap]
    simp
  · have : (wts (bandsOf o model e ip) bg false nrm).length = (ids (bandsOf o model e ip)).length := by
      unfold wts ids
      rw [List.length_flatMap, List.length_flatMap]
      simp [bandWeights_length]
    split
    · rw [List.length_map, this]
    · exact this
  · unfold ids bandsOf
    have := cut_sorted (o := o) (e := e)
    revert this
    induction o.cut e with
    | nil => simp
    | cons i l ih =>
      intro this
      rw [List.map_cons, List.flatMap_cons, List.pairwise_append]
      rw [List.pairwise_cons] at this
      refine ⟨List.pairwise_replicate.2 (Or.inr le_rfl), ih this.2, ?_⟩
      intro a ha c hc
      obtain rfl := List.eq_of_mem_replicate ha
      obtain ⟨b, hb, hc⟩ := List.mem_flatMap.1 hc
      obtain ⟨j, hj, rfl⟩ := List.mem_map.1 hb
      obtain rfl := List.eq_of_mem_replicate hc
      exact (this.1 _ hj).le
  · intro i
    have key : ∀ l : List ℕ, l.Pairwise (· < ·) → (ids (l.map fun i => (i, (o.samples i e).map (o.improve model e ip i)))).count i =
        if i ∈ l then (o.samples i e).length else 0 := by
      intro l
      induction l with
      | nil => simp [ids]
      | cons j l ih =>
        intro hl
        rw [List.pairwise_cons] at hl
        have ih := ih hl.2
        unfold ids at ih ⊢
        rw [List.map_cons, List.flatMap_cons, List.count_append, ih, List.count_replicate]
        by_cases hij : j = i
        · subst hij
          have : j ∉ l := fun hj => lt_irrefl _ (hl.1 j hj)
          simp [this]
        · have : ¬ i = j := fun h => hij h.symm
          simp [hij, this]
    have := key (o.cut e) cut_sorted
    simp only [cut_mem] at this
    exact this

/-- **C118.** Without `improved_weights` the returned area is `det(A) / crystal_volume` times the sum of the sample weights of the cut
bands.  It is the sum of the weights if they are not normalised nor divided by gradients; with `normalize="total"` the weights sum up to 1. -/
theorem C118_area (h : ∃ m, o.model = some m) (hn : Spec.Option nrm) : ∃ P I W T, o.fermiSamples e ip false bg nrm = .ok (P, I, W, T) ∧
    T = ((o.cut e).map fun i => ((o.samples i e).map Smpl.w).sum).sum * (o.detA / o.vol) ∧
    (bg = false → nrm = none → W.sum = T) ∧ (bg = false → nrm = some "total" → T ≠ 0 → W.sum = 1) := by
  obtain ⟨model, hm⟩ := h
  have hw : bg = false → nrm ≠ some "band" → (wts (bandsOf o model e ip) bg false nrm).sum = tot (bandsOf o model e ip) := by
    intro h1 h2
    unfold wts tot
    rw [sum_flatMap]
    congr 1
    refine List.map_congr_left fun b _ => ?_
    have : (nrm == some "band") = false := by simpa using h2
    simp [bandWeights, h1, this]
  refine ⟨_, _, _, _, plain model hm hn, tot_eq model, ?_, ?_⟩
  · intro h1 h2
    rw [if_neg (by rw [h2]; simp)]
    exact hw h1 (by rw [h2]; simp)
  · intro h1 h2 h3
    rw [if_pos h2, sum_map_div, hw h1 (by rw [h2]; decide), div_self h3]

/-- **C118.** With `normalize="band"` and without division by gradients, the weights of every cut band sum up to 1. -/
theorem C118_band_sum (h : ∃ m, o.model = some m) (hd : o.detA ≠ 0) (hv : o.vol ≠ 0) : ∃ P I W T,
    o.fermiSamples e ip false false (some "band") = .ok (P, I, W, T) ∧
    ∀ i r, o.ranges[i]? = some r → r.1 < e → e < r.2 → ((o.samples i e).map Smpl.w).sum ≠ 0 → Spec.bandSum I W i = 1 := by
  obtain ⟨model, hm⟩ := h
  refine ⟨_, _, _, _, plain model hm (Or.inr (Or.inl rfl)), ?_⟩
  intro i r h1 h2 h3 h4
  have hi : i ∈ o.cut e := (cut_mem i).2 ⟨r, h1, h2, h3⟩
  rw [if_neg (by decide)]
  have key : ∀ l : List ℕ, l.Pairwise (· < ·) → Spec.bandSum (ids (l.map fun i => (i, (o.samples i e).map (o.improve model e ip i))))
      (wts (l.map fun i => (i, (o.samples i e).map (o.improve model e ip i))) false false (some "band")) i =
        if i ∈ l then 1 else 0 := by
    intro l
    induction l with
    | nil => simp [ids, wts, Spec.bandSum]
    | cons j l ih =>
      intro hl
      rw [List.pairwise_cons] at hl
      have ih := ih hl.2
      unfold ids wts Spec.bandSum at ih ⊢
      rw [List.map_cons, List.flatMap_cons, List.flatMap_cons, List.zip_append (by rw [List.length_replicate, bandWeights_length]),
        List.filter_append, List.map_append, List.sum_append, ih, filter_zip_replicate _ _ _ _ (bandWeights_length _ _ _)]
      by_cases hij : j = i
      · subst hij
        have hnot : j ∉ l := fun hj => lt_irrefl _ (hl.1 j hj)
        have hs : (((o.samples j e).map (o.improve model e ip j)).map Smpl.w).sum = ((o.samples j e).map Smpl.w).sum * (o.detA / o.vol) := by
          rw [List.map_map, ← sum_map_mul_right']
          congr 1
          exact List.map_congr_left fun s _ => improve_w model j s
        have : (bandWeights (false && !false) (some "band" == some "band") ((o.samples j e).map (o.improve model e ip j))).sum = 1 := by
          simp only [bandWeights, Bool.false_and, Bool.false_eq_true, if_false, BEq.rfl, if_true]
          rw [sum_map_div, hs, div_self (mul_ne_zero h4 (div_ne_zero hd hv))]
        rw [if_pos rfl, if_neg hnot, if_pos (by simp), this, add_zero]
      · have : ¬ i = j := fun h => hij h.symm
        rw [if_neg hij, List.sum_nil, zero_add]
        simp [this]
  rw [← if_pos (c := i ∈ o.cut e) (t := (1 : ℝ)) (e := 0) hi]
  exact key (o.cut e) cut_sorted

/-- **C118.** `improved_points` with exact gradients puts the points of an affine band on the surface, up to the factor
`1e-20 / (1e-20 + |g|²)` of the error. -/
theorem C118_newton (model : V3 → ℕ → ℝ) (gr : V3 → ℕ → ℝ × V3) (hm : o.model = some model) (hg : o.grad = some gr) (hn : Spec.Option nrm)
    (P : List V3) (I : List ℕ) (W : List ℝ) (T : ℝ) (h : o.fermiSamples e true false bg nrm = .ok (P, I, W, T)) (p : V3) (i : ℕ)
    (hp : (p, i) ∈ P.zip I) (c : ℝ) (g : V3) (ha : Spec.Affine model gr i c g) :
    ∃ s ∈ o.samples i e, model p i - e = (model s.x i - e) * (1 / 10 ^ 20 / (1 / 10 ^ 20 + ∑ a, g a ^ 2)) := by
  rw [plain model hm hn] at h
  have h := Except.ok.inj h
  simp only [Prod.mk.injEq] at h
  obtain ⟨rfl, rfl, -⟩ := h
  obtain ⟨-, s, hs, rfl⟩ := mem_bands hp
  refine ⟨s, hs, ?_⟩
  have hx : (o.improve model e true i s).x = newton s.x g (c + g ⬝ᵥ s.x - e) := by
    simp only [Obj.improve, hg, if_true, (ha s.x).2]
  rw [hx, (ha _).1, (ha _).1, newton_res, sub_self, zero_add]

/-- **C118.** `improved_points` without `bands_grad`: the gradients of the samples are used; where they are those of an affine band, the points land on
the surface in the same way. -/
theorem C118_newton_samples (model : V3 → ℕ → ℝ) (hm : o.model = some model) (hg : o.grad = none) (hn : Spec.Option nrm)
    (P : List V3) (I : List ℕ) (W : List ℝ) (T : ℝ) (h : o.fermiSamples e true false bg nrm = .ok (P, I, W, T)) (p : V3) (i : ℕ)
    (hp : (p, i) ∈ P.zip I) (c : ℝ) (g : V3) (ha : ∀ x, model x i = c + g ⬝ᵥ x) (hs : ∀ s ∈ o.samples i e, s.grad = g) :
    ∃ s ∈ o.samples i e, model p i - e = (model s.x i - e) * (1 / 10 ^ 20 / (1 / 10 ^ 20 + ∑ a, g a ^ 2)) := by
  rw [plain model hm hn] at h
  have h := Except.ok.inj h
  simp only [Prod.mk.injEq] at h
  obtain ⟨rfl, rfl, -⟩ := h
  obtain ⟨-, s, hsm, rfl⟩ := mem_bands hp
  refine ⟨s, hsm, ?_⟩
  have hx : (o.improve model e true i s).x = newton s.x g (c + g ⬝ᵥ s.x - e) := by
    simp only [Obj.improve, hg, if_true, ha s.x, hs s hsm]
  rw [hx, ha, ha, newton_res, sub_self, zero_add]

/-- **C118 (defect)** With `improved_weights` the last step forgets the energy: the points of an affine band end at the energy **zero** instead
of the given one, up to the factor `1e-20 / (1e-20 + |g|²)`. -/
theorem C118_energy_forgotten (model : V3 → ℕ → ℝ) (gr : V3 → ℕ → ℝ × V3) (hm : o.model = some model) (hg : o.grad = some gr)
    (hn : Spec.Option nrm) (hb : nrm ≠ some "band") : ∃ P I W T, o.fermiSamples e true true bg nrm = .ok (P, I, W, T) ∧ P.length = I.length ∧
      ∀ p i, (p, i) ∈ P.zip I → ∀ c g, Spec.Affine model gr i c g → ∃ s ∈ o.samples i e,
        model p i = (e + (model s.x i - e) * (1 / 10 ^ 20 / (1 / 10 ^ 20 + ∑ a, g a ^ 2))) * (1 / 10 ^ 20 / (1 / 10 ^ 20 + ∑ a, g a ^ 2)) := by
  obtain ⟨w, hw, -⟩ := better (e := e) (ip := true) (bg := bg) model hm hn gr hg hb
  have hlen : (pts (bandsOf o model e true)).length = (ids (bandsOf o model e true)).length := by
    unfold pts ids
    rw [List.length_flatMap, List.length_flatMap]
    simp
  refine ⟨_, _, _, _, hw, by simp [hlen], ?_⟩
  intro p i hp c g ha
  have key : ∀ (xs : List V3) (is : List ℕ), (p, i) ∈ (List.zipWith (fun x (r : ℝ × V3) => newton x r.2 r.1) xs
      (List.zipWith (fun x i => gr x i) xs is)).zip is → ∃ q, (q, i) ∈ xs.zip is ∧ p = newton q (gr q i).2 (gr q i).1 := by
    intro xs
    induction xs with
    | nil => intro is h; simp at h
    | cons x xs ih =>
      intro is h
      cases is with
      | nil => simp at h
      | cons j is =>
        rw [List.zipWith_cons_cons, List.zipWith_cons_cons, List.zip_cons_cons] at h
        rcases List.mem_cons.1 h with h | h
        · obtain ⟨rfl, rfl⟩ := Prod.mk.inj h
          exact ⟨x, by simp, rfl⟩
        · obtain ⟨q, h1, h2⟩ := ih is h
          exact ⟨q, by rw [List.zip_cons_cons]; exact List.mem_cons_of_mem _ h1, h2⟩
  obtain ⟨q, hq, rfl⟩ := key _ _ hp
  obtain ⟨-, s, hs, rfl⟩ := mem_bands hq
  refine ⟨s, hs, ?_⟩
  have hx : (o.improve model e true i s).x = newton s.x g (c + g ⬝ᵥ s.x - e) := by
    simp only [Obj.improve, hg, if_true, (ha s.x).2]
  have h1 := newton_res c g s.x e e
  have h2 := newton_res c g (newton s.x g (c + g ⬝ᵥ s.x - e)) 0 0
  rw [hx, (ha _).1, (ha _).2, (ha _).1]
  simp only
  rw [sub_zero, sub_zero, sub_zero, zero_add] at h2
  rw [h2, show c + g ⬝ᵥ newton s.x g (c + g ⬝ᵥ s.x - e) = e + (c + g ⬝ᵥ newton s.x g (c + g ⬝ᵥ s.x - e) - e) by ring, h1, sub_self, zero_add]

/-- **C118 (defect)** With `weight_by_gradient` the normalised weights do not sum up to 1, since the sum of the areas is used. -/
theorem C118_gradient_sum (h : ∃ m, o.model = some m) (hm : o.grad = none) (hd : o.detA / o.vol ≠ 0) : ∃ P I W T,
    o.fermiSamples e ip false true (some "total") = .ok (P, I, W, T) ∧
      W.sum = ((o.cut e).map fun i => ((o.samples i e).map fun s => s.w / (norm3 s.grad + 1 / 10 ^ 20)).sum).sum /
        ((o.cut e).map fun i => ((o.samples i e).map Smpl.w).sum).sum := by
  obtain ⟨model, hmod⟩ := h
  refine ⟨_, _, _, _, plain model hmod (Or.inr (Or.inr rfl)), ?_⟩
  rw [if_pos rfl, sum_map_div, tot_eq]
  have hw : (wts (bandsOf o model e ip) true false (some "total")).sum =
      ((o.cut e).map fun i => ((o.samples i e).map fun s => s.w / (norm3 s.grad + 1 / 10 ^ 20)).sum).sum * (o.detA / o.vol) := by
    unfold wts bandsOf
    rw [sum_flatMap, List.map_map, ← sum_map_mul_right']
    congr 1
    refine List.map_congr_left fun i _ => ?_
    simp only [Function.comp, bandWeights, Bool.not_false, Bool.and_self, if_true]
    rw [if_neg (by decide), List.map_map, ← sum_map_mul_right']
    congr 1
    refine List.map_congr_left fun s _ => ?_
    simp only [Function.comp, improve_w]
    have : (o.improve model e ip i s).grad = s.grad := by
      unfold Obj.improve
      rw [hm]
      cases ip <;> rfl
    rw [this]
    ring
  rw [hw, mul_div_mul_right _ _ hd]

/-- **C118 (defect)** With `weight_by_gradient` and `normalize="band"` the weights of a band sum up to the mean of `1 / |gradient|`, not to 1. -/
theorem C118_gradient_band_sum (h : ∃ m, o.model = some m) (hm : o.grad = none) (hd : o.detA ≠ 0) (hv : o.vol ≠ 0) : ∃ P I W T,
    o.fermiSamples e ip false true (some "band") = .ok (P, I, W, T) ∧
    ∀ i r, o.ranges[i]? = some r → r.1 < e → e < r.2 →
      Spec.bandSum I W i = ((o.samples i e).map fun s => s.w / (norm3 s.grad + 1 / 10 ^ 20)).sum / ((o.samples i e).map Smpl.w).sum := by
  obtain ⟨model, hmod⟩ := h
  refine ⟨_, _, _, _, plain model hmod (Or.inr (Or.inl rfl)), ?_⟩
  intro i r h1 h2 h3
  have hi : i ∈ o.cut e := (cut_mem i).2 ⟨r, h1, h2, h3⟩
  rw [if_neg (by decide)]
  have key : ∀ l : List ℕ, l.Pairwise (· < ·) → Spec.bandSum (ids (l.map fun i => (i, (o.samples i e).map (o.improve model e ip i))))
      (wts (l.map fun i => (i, (o.samples i e).map (o.improve model e ip i))) true false (some "band")) i =
        if i ∈ l then ((o.samples i e).map fun s => s.w / (norm3 s.grad + 1 / 10 ^ 20)).sum / ((o.samples i e).map Smpl.w).sum else 0 := by
    intro l
    induction l with
    | nil => simp [ids, wts, Spec.bandSum]
    | cons j l ih =>
      intro hl
      rw [List.pairwise_cons] at hl
      have ih := ih hl.2
      unfold ids wts Spec.bandSum at ih ⊢
      rw [List.map_cons, List.flatMap_cons, List.flatMap_cons, List.zip_append (by rw [List.length_replicate, bandWeights_length]),
        List.filter_append, List.map_append, List.sum_append, ih, filter_zip_replicate _ _ _ _ (bandWeights_length _ _ _)]
      by_cases hij : j = i
      · subst hij
        have hnot : j ∉ l := fun hj => lt_irrefl _ (hl.1 j hj)
        have hs : (((o.samples j e).map (o.improve model e ip j)).map Smpl.w).sum = ((o.samples j e).map Smpl.w).sum * (o.detA / o.vol) := by
          rw [List.map_map, ← sum_map_mul_right']
          congr 1
          exact List.map_congr_left fun s _ => improve_w model j s
        have hs2 : (((o.samples j e).map (o.improve model e ip j)).map fun s => s.w / (norm3 s.grad + 1 / 10 ^ 20)).sum =
            ((o.samples j e).map fun s => s.w / (norm3 s.grad + 1 / 10 ^ 20)).sum * (o.detA / o.vol) := by
          rw [List.map_map, ← sum_map_mul_right']
          congr 1
          refine List.map_congr_left fun s _ => ?_
          simp only [Function.comp, improve_w]
          have : (o.improve model e ip j s).grad = s.grad := by
            unfold Obj.improve
            rw [hm]
            cases ip <;> rfl
          rw [this]
          ring
        have : (bandWeights (true && !false) (some "band" == some "band") ((o.samples j e).map (o.improve model e ip j))).sum =
            ((o.samples j e).map fun s => s.w / (norm3 s.grad + 1 / 10 ^ 20)).sum / ((o.samples j e).map Smpl.w).sum := by
          simp only [bandWeights, Bool.true_and, Bool.not_false, BEq.rfl, if_true]
          rw [sum_map_div, hs, hs2, mul_div_mul_right _ _ (div_ne_zero hd hv)]
        rw [if_pos rfl, if_neg hnot, if_pos (by simp), this, add_zero]
      · have : ¬ i = j := fun h => hij h.symm
        rw [if_neg hij, List.sum_nil, zero_add]
        simp [this]
  rw [← if_pos (c := i ∈ o.cut e) (t := ((o.samples i e).map fun s => s.w / (norm3 s.grad + 1 / 10 ^ 20)).sum / ((o.samples i e).map Smpl.w).sum) (e := 0) hi]
  exact key (o.cut e) cut_sorted

/-- **C118 (defect)** The weights are `det(A)` times too large: if the whole cell is sampled (`crystal_volume = 1`) the returned area is `det(A)` times
the area, negative for a left-handed lattice. -/
theorem C118_det (h : ∃ m, o.model = some m) (hv : o.vol = 1) (hw : ∀ i, ∀ s ∈ o.samples i e, 0 < s.w)
    (hs : ∃ i ∈ o.cut e, o.samples i e ≠ []) (hd : o.detA < 0) : ∃ P I W T, o.fermiSamples e ip false false none = .ok (P, I, W, T) ∧
      T = o.detA * ((o.cut e).map fun i => ((o.samples i e).map Smpl.w).sum).sum ∧ W.sum = T ∧ T < 0 := by
  obtain ⟨P, I, W, T, h1, h2, h3, -⟩ := C118_area (e := e) (ip := ip) (bg := false) (nrm := none) h (Or.inl rfl)
  have hnn : ∀ i, 0 ≤ ((o.samples i e).map Smpl.w).sum := fun i =>
    List.sum_nonneg fun x hx => by obtain ⟨s, hs, rfl⟩ := List.mem_map.1 hx; exact (hw i s hs).le
  have hpos : 0 < ((o.cut e).map fun i => ((o.samples i e).map Smpl.w).sum).sum := by
    obtain ⟨i, hi, hne⟩ := hs
    have h4 : 0 < ((o.samples i e).map Smpl.w).sum := by
      cases hl : o.samples i e with
      | nil => exact absurd hl hne
      | cons s l =>
        rw [List.map_cons, List.sum_cons]
        have h5 := hw i s (by rw [hl]; simp)
        have h6 : 0 ≤ (l.map Smpl.w).sum := List.sum_nonneg fun x hx => by
          obtain ⟨s', hs', rfl⟩ := List.mem_map.1 hx
          exact (hw i s' (by rw [hl]; exact List.mem_cons_of_mem _ hs')).le
        linarith
    have h7 := List.single_le_sum (l := (o.cut e).map fun i => ((o.samples i e).map Smpl.w).sum)
      (fun x hx => by obtain ⟨j, -, rfl⟩ := List.mem_map.1 hx; exact hnn j) _ (List.mem_map_of_mem hi)
    linarith
  rw [hv, div_one] at h2
  exact ⟨P, I, W, T, h1, by rw [h2, mul_comm], h3 rfl rfl, by rw [h2]; exact mul_neg_of_pos_of_neg hpos hd⟩

/-! ## The coordinates of `CubesSmearing.samples` -/

/-- Area of the parallelogram of two vectors. -/
noncomputable def Spec.area (u v : V3) : ℝ := Real.sqrt ((u ⬝ᵥ u) * (v ⬝ᵥ v) - (u ⬝ᵥ v) ^ 2)

/-- `Q` is a possible factor `np.linalg.qr(M).Q` for a matrix with the first column `n`. -/
def Spec.IsQ (Q : Matrix (Fin 3) (Fin 3) ℝ) (n : V3) : Prop := Qᵀ * Q = 1 ∧ ∃ r : ℝ, ∀ a, n a = r * Q a 0

theorem norm3_sq (g : V3) : norm3 g ^ 2 = g ⬝ᵥ g := by
  unfold norm3
  rw [Real.sq_sqrt (Finset.sum_nonneg fun a _ => sq_nonneg _)]
  simp [dotProduct, pow_two]

theorem dot_self_zero {n : V3} (h : n ⬝ᵥ n = 0) : n = 0 := by
  simp only [dotProduct] at h
  rw [Finset.sum_eq_zero_iff_of_nonneg fun a _ => mul_self_nonneg _] at h
  funext a
  exact mul_self_eq_zero.1 (h a (Finset.mem_univ a))

theorem norm3_nonneg (g : V3) : 0 ≤ norm3 g := Real.sqrt_nonneg _

theorem norm3_smul (r : ℝ) (g : V3) : norm3 (r • g) = |r| * norm3 g := by
  rw [← abs_of_nonneg (norm3_nonneg (r • g)), ← abs_of_nonneg (norm3_nonneg g), ← abs_mul, ← sq_eq_sq_iff_abs_eq_abs, mul_pow, norm3_sq,
    norm3_sq, smul_dotProduct, dotProduct_smul, smul_eq_mul, smul_eq_mul]
  ring

theorem area_eq (u v : V3) : Spec.area u v = norm3 (u ⨯₃ v) := by
  unfold Spec.area norm3
  congr 1
  simp only [cross_apply, dotProduct, Fin.sum_univ_three, Matrix.cons_val_zero, Matrix.cons_val_one, Matrix.cons_val]
  ring

theorem isQ_norm {Q : Matrix (Fin 3) (Fin 3) ℝ} {n : V3} {r : ℝ} (h : Qᵀ * Q = 1) (hr : ∀ a, n a = r * Q a 0) : |r| = norm3 n := by
  have h0 : ∑ a, Q a 0 * Q a 0 = 1 := by
    have := congrFun (congrFun h 0) 0
    simpa [Matrix.mul_apply, Matrix.transpose_apply] using this
  rw [← abs_of_nonneg (norm3_nonneg n), ← sq_eq_sq_iff_abs_eq_abs, norm3_sq]
  simp only [dotProduct, hr]
  calc r ^ 2 = r ^ 2 * ∑ a, Q a 0 * Q a 0 := by rw [h0, mul_one]
    _ = _ := by rw [Finset.mul_sum]; exact Finset.sum_congr rfl fun a _ => by ring

theorem norm3_ne {n : V3} (hn : n ≠ 0) : norm3 n ≠ 0 := by
  intro h
  have : n ⬝ᵥ n = 0 := by rw [← norm3_sq, h]; ring
  exact hn (dot_self_zero this)

theorem orth_det {Q : Matrix (Fin 3) (Fin 3) ℝ} (h : Qᵀ * Q = 1) : |Q.det| = 1 := by
  have := congrArg Matrix.det h
  rw [Matrix.det_mul, Matrix.det_transpose, Matrix.det_one, ← pow_two] at this
  have h2 : (Q.det - 1) * (Q.det + 1) = 0 := by linear_combination this
  rcases mul_eq_zero.1 h2 with h | h
  · rw [show Q.det = 1 by linarith, abs_one]
  · rw [show Q.det = -1 by linarith, abs_neg, abs_one]

/-- **C118.** The area scaling of `CubesSmearing.samples` is `|det L| |n L⁻¹| / |n|`, whichever QR decompositions are used. -/
theorem C118_scale (L Q Q2 : Matrix (Fin 3) (Fin 3) ℝ) (n : V3) (hL : L.det ≠ 0) (hn : n ≠ 0) (hQ : Spec.IsQ Q n)
    (hQ2 : Spec.IsQ Q2 (Matrix.vecMul n L⁻¹)) : areaScale L Q Q2 = |L.det| * norm3 (Matrix.vecMul n L⁻¹) / norm3 n := by
  obtain ⟨h1, r, hr⟩ := hQ
  obtain ⟨h2, t, ht⟩ := hQ2
  have hu : IsUnit L.det := isUnit_iff_ne_zero.2 hL
  have hnn : Matrix.vecMul (Matrix.vecMul n L⁻¹) L = n := by
    rw [Matrix.vecMul_vecMul, Matrix.nonsing_inv_mul _ hu, Matrix.vecMul_one]
  have hne : Matrix.vecMul n L⁻¹ ≠ 0 := by
    intro h
    rw [h, Matrix.zero_vecMul] at hnn
    exact hn hnn.symm
  have hrn := isQ_norm h1 hr
  have htn := isQ_norm h2 ht
  have ht0 : t ≠ 0 := by
    intro h
    rw [h, abs_zero] at htn
    exact norm3_ne hne htn.symm
  let M := Q2ᵀ * L * Q
  have hrow : ∀ j, M 0 j = r / t * (1 : Matrix (Fin 3) (Fin 3) ℝ) 0 j := by
    intro j
    have e1 : ∀ b, ∑ a, Q2 a 0 * L a b = n b / t := by
      intro b
      rw [eq_div_iff ht0, ← congrFun hnn b]
      simp only [Matrix.vecMul, dotProduct]
      rw [Finset.sum_mul]
      refine Finset.sum_congr rfl fun a _ => ?_
      have := ht a
      simp only [Matrix.vecMul, dotProduct] at this
      rw [this]
      ring
    have e2 : M 0 j = ∑ b, n b / t * Q b j := by
      show (Q2ᵀ * L * Q) 0 j = _
      rw [Matrix.mul_apply]
      refine Finset.sum_congr rfl fun b _ => ?_
      rw [Matrix.mul_apply, ← e1 b]
      simp [Matrix.transpose_apply]
    rw [e2, ← h1, Matrix.mul_apply, Finset.mul_sum]
    refine Finset.sum_congr rfl fun b _ => ?_
    rw [hr b, Matrix.transpose_apply]
    ring
  have hdet : M.det = r / t * (Matrix.of fun i j : Fin 2 => ∑ a, ∑ b, Q2 a i.succ * L a b * Q b j.succ).det := by
    have hM : ∀ i j : Fin 3, M i j = ∑ a, ∑ b, Q2 a i * L a b * Q b j := by
      intro i j
      show (Q2ᵀ * L * Q) i j = _
      rw [Matrix.mul_apply]
      simp only [Matrix.mul_apply, Matrix.transpose_apply, Finset.sum_mul]
      rw [Finset.sum_comm]
    rw [Matrix.det_fin_three, Matrix.det_fin_two, hrow 0, hrow 1, hrow 2]
    simp only [Matrix.of_apply, ← hM]
    rw [Matrix.one_apply_eq, Matrix.one_apply_ne (by decide), Matrix.one_apply_ne (by decide)]
    have s0 : (0 : Fin 2).succ = 1 := rfl
    have s1 : (1 : Fin 2).succ = 2 := rfl
    rw [s0, s1]
    ring
  have hdet2 : |M.det| = |L.det| := by
    show |(Q2ᵀ * L * Q).det| = _
    rw [Matrix.det_mul, Matrix.det_mul, Matrix.det_transpose, abs_mul, abs_mul, orth_det h1, orth_det h2]
    ring
  unfold areaScale
  rw [eq_div_iff (norm3_ne hn), ← htn, ← hrn, ← hdet2, hdet, abs_mul, abs_div]
  have := abs_ne_zero.2 ht0
  field_simp

/-- **C118.** Areas in the cut plane (perpendicular to the gradient) are multiplied by the scaling, when the cube is mapped to reciprocal
space. -/
theorem C118_plane_area (L Q Q2 : Matrix (Fin 3) (Fin 3) ℝ) (n : V3) (hL : L.det ≠ 0) (hn : n ≠ 0) (hQ : Spec.IsQ Q n)
    (hQ2 : Spec.IsQ Q2 (Matrix.vecMul n L⁻¹)) (u v : V3) (hu : n ⬝ᵥ u = 0) (hv : n ⬝ᵥ v = 0) :
    Spec.area (L.mulVec u) (L.mulVec v) = areaScale L Q Q2 * Spec.area u v := by
  rw [C118_scale L Q Q2 n hL hn hQ hQ2, area_eq, area_eq]
  have hLu : IsUnit L.det := isUnit_iff_ne_zero.2 hL
  have e1 : Matrix.vecMul (L.mulVec u ⨯₃ L.mulVec v) L = L.det • (u ⨯₃ v) := by
    funext a
    fin_cases a <;>
      simp [cross_apply, Matrix.vecMul, Matrix.mulVec, dotProduct, Fin.sum_univ_three, Matrix.det_fin_three] <;> ring
  have e2 : (L.mulVec u ⨯₃ L.mulVec v) = Matrix.vecMul (L.det • (u ⨯₃ v)) L⁻¹ := by
    rw [← e1, Matrix.vecMul_vecMul, Matrix.mul_nonsing_inv _ hLu, Matrix.vecMul_one]
  have hn2 : n ⬝ᵥ n ≠ 0 := fun h => hn (dot_self_zero h)
  have e3 : u ⨯₃ v = ((u ⨯₃ v) ⬝ᵥ n / (n ⬝ᵥ n)) • n := by
    funext a
    rw [Pi.smul_apply, smul_eq_mul, div_mul_eq_mul_div, eq_div_iff hn2]
    simp only [dotProduct, Fin.sum_univ_three] at hu hv
    fin_cases a <;> simp [cross_apply, dotProduct, Fin.sum_univ_three]
    · linear_combination (-(n 1 * u 2 - n 2 * u 1)) * hv + (n 1 * v 2 - n 2 * v 1) * hu
    · linear_combination (-(n 2 * u 0 - n 0 * u 2)) * hv + (n 2 * v 0 - n 0 * v 2) * hu
    · linear_combination (-(n 0 * u 1 - n 1 * u 0)) * hv + (n 0 * v 1 - n 1 * v 0) * hu
  rw [e2, e3, Matrix.smul_vecMul, Matrix.smul_vecMul, norm3_smul, norm3_smul, norm3_smul]
  have := norm3_ne hn
  field_simp

/-- **C118.** Points and gradients of `CubesSmearing.samples` belong together: the value, which is linear in the cube, is linear in reciprocal space
with the returned gradient. -/
theorem C118_cube_gradient (B : Matrix (Fin 3) (Fin 3) ℝ) (step : V3) (cuts : List Cut) (hB : B.det ≠ 0) (hs : ∀ a, step a ≠ 0) (s : Smpl)
    (h : s ∈ cubeSamples B step cuts) : ∃ c ∈ cuts, 1 / 10000 < c.area ∧ s.w = c.area * c.scale ∧
      ∀ y : V3, c.normal ⬝ᵥ y - c.normal ⬝ᵥ c.com = s.grad ⬝ᵥ (B.mulVec (fun a => y a * step a + c.center a) - s.x) := by
  obtain ⟨c, hc, rfl⟩ := List.mem_map.1 h
  obtain ⟨h1, h2⟩ := List.mem_filter.1 hc
  refine ⟨c, h1, by simpa using h2, rfl, fun y => ?_⟩
  simp only
  rw [← Matrix.mulVec_sub, ← Matrix.dotProduct_mulVec, Matrix.mulVec_mulVec, Matrix.nonsing_inv_mul _ (isUnit_iff_ne_zero.2 hB),
    Matrix.one_mulVec, ← dotProduct_sub]
  refine Finset.sum_congr rfl fun a _ => ?_
  have := hs a
  simp only [Pi.sub_apply]
  field_simp
  ring

/-- **C118.** Weights and gradients of `CubesSmearing.samples` belong together (coarea formula): the weight divided by the gradient is the cut area of the
unit cube divided by its gradient, times the volume of the cube in reciprocal space. Sums of `w / |gradient|` are densities of states. -/
theorem C118_coarea (B : Matrix (Fin 3) (Fin 3) ℝ) (step : V3) (cuts : List Cut) (hB : B.det ≠ 0) (hs : ∀ a, step a ≠ 0)
    (hc : ∀ c ∈ cuts, c.normal ≠ 0 ∧ ∃ Q Q2, Spec.IsQ Q c.normal ∧ Spec.IsQ Q2 (Matrix.vecMul c.normal (stepMatrix B step)⁻¹) ∧
      c.scale = areaScale (stepMatrix B step) Q Q2) (s : Smpl) (h : s ∈ cubeSamples B step cuts) :
    ∃ c ∈ cuts, 0 < norm3 s.grad ∧ s.w / norm3 s.grad = c.area / norm3 c.normal * (|B.det| * |step 0 * step 1 * step 2|) := by
  obtain ⟨c, hc', rfl⟩ := List.mem_map.1 h
  obtain ⟨h1, -⟩ := List.mem_filter.1 hc'
  obtain ⟨hn, Q, Q2, hQ, hQ2, hsc⟩ := hc c h1
  have hdet : (stepMatrix B step).det = B.det * (step 0 * step 1 * step 2) := by
    rw [stepMatrix, Matrix.det_mul, Matrix.det_diagonal, Fin.prod_univ_three]
  have hL : (stepMatrix B step).det ≠ 0 := by
    rw [hdet]
    exact mul_ne_zero hB (mul_ne_zero (mul_ne_zero (hs 0) (hs 1)) (hs 2))
  have hg : Matrix.vecMul (fun a => c.normal a / step a) B⁻¹ = Matrix.vecMul c.normal (stepMatrix B step)⁻¹ := by
    have hd : (Matrix.diagonal step)⁻¹ = Matrix.diagonal fun a => (step a)⁻¹ := by
      refine Matrix.inv_eq_right_inv ?_
      rw [Matrix.diagonal_mul_diagonal, ← Matrix.diagonal_one]
      congr 1
      funext a
      exact mul_inv_cancel₀ (hs a)
    rw [stepMatrix, Matrix.mul_inv_rev, hd, ← Matrix.vecMul_vecMul]
    congr 1
    funext a
    rw [Matrix.vecMul_diagonal, div_eq_mul_inv]
  have hne : Matrix.vecMul c.normal (stepMatrix B step)⁻¹ ≠ 0 := by
    intro h0
    have hnn : Matrix.vecMul (Matrix.vecMul c.normal (stepMatrix B step)⁻¹) (stepMatrix B step) = c.normal := by
      rw [Matrix.vecMul_vecMul, Matrix.nonsing_inv_mul _ (isUnit_iff_ne_zero.2 hL), Matrix.vecMul_one]
    rw [h0, Matrix.zero_vecMul] at hnn
    exact hn hnn.symm
  have hpos : 0 < norm3 (Matrix.vecMul c.normal (stepMatrix B step)⁻¹) := (norm3_nonneg _).lt_of_ne (norm3_ne hne).symm
  refine ⟨c, h1, ?_⟩
  simp only [hg]
  refine ⟨hpos, ?_⟩
  rw [hsc, C118_scale _ Q Q2 _ hL hn hQ hQ2, hdet, abs_mul]
  have := (norm3_ne hn)
  have := hpos.ne'
  field_simp

/-- **C118.** Pieces with an area up to `1e-4` (in units of the cube) are left out; this makes the total area too small by at most `1e-4` of the
scale for every cube. -/
theorem C118_left_out (B : Matrix (Fin 3) (Fin 3) ℝ) (step : V3) (cuts : List Cut) (h : ∀ c ∈ cuts, 0 ≤ c.area ∧ 0 ≤ c.scale) :
    ((cubeSamples B step cuts).map Smpl.w).sum ≤ (cuts.map fun c => c.area * c.scale).sum ∧
    (cuts.map fun c => c.area * c.scale).sum ≤ ((cubeSamples B step cuts).map Smpl.w).sum + 1 / 10000 * (cuts.map Cut.scale).sum := by
  induction cuts with
  | nil => simp [cubeSamples]
  | cons c l ih =>
    obtain ⟨i1, i2⟩ := ih fun c hc => h c (List.mem_cons_of_mem _ hc)
    obtain ⟨h1, h2⟩ := h c (by simp)
    have hp : 0 ≤ c.area * c.scale := mul_nonneg h1 h2
    unfold cubeSamples at i1 i2 ⊢
    rw [List.filter_cons]
    by_cases hc : 1 / 10000 < c.area
    · rw [if_pos (by simpa using hc)]
      simp only [List.map_cons, List.sum_cons]
      constructor
      · linarith
      · linarith
    · rw [if_neg (by simpa using hc)]
      simp only [List.map_cons, List.sum_cons]
      have : c.area * c.scale ≤ 1 / 10000 * c.scale := mul_le_mul_of_nonneg_right (not_lt.1 hc) h2
      constructor
      · linarith
      · linarith

/-! ## Examples -/

/-- One affine band `2 x` with a sample off the surface at the energy 1/2; left-handed lattice. -/
noncomputable def exO : Obj where
  ranges := [(-1, 1), (3, 4)]
  samples := fun _ _ => [⟨![1, 0, 0], ![2, 0, 0], 3⟩, ⟨![0, 1, 0], ![2, 0, 0], 1⟩]
  detA := -2
  vol := 1
  model := some fun x _ => 2 * x 0
  grad := some fun x _ => (2 * x 0, ![2, 0, 0])
  reweight := fun p _ _ => p.map fun _ => 1

theorem exO_affine (i : ℕ) : Spec.Affine (fun x _ => 2 * x 0) (fun x _ => (2 * x 0, ![2, 0, 0])) i 0 ![2, 0, 0] := by
  intro x
  simp [dotProduct, Fin.sum_univ_three]

theorem exO_cut : exO.cut (1 / 2) = [0] := by
  unfold Obj.cut exO
  simp only [List.zipIdx_cons, List.zipIdx_nil, List.filter_cons, List.filter_nil]
  norm_num

-- errors
example : exO.fermiSamples 0 true true false (some "band") = .error .notImplemented :=
  ((C118_errors exO 0 true true false (some "band")).2 (by simp [exO]) (Or.inr (Or.inl rfl))).1 ⟨rfl, Or.inr rfl⟩
example : exO.fermiSamples 0 true true false (some "bands") = .error .assertionError :=
  (C118_errors exO 0 true true false (some "bands")).1 (Or.inr (by rintro (h | h | h) <;> revert h <;> decide))
-- two samples of band 0
example : ∃ P I W T, exO.fermiSamples (1 / 2) true false false none = .ok (P, I, W, T) ∧ I.count 0 = 2 ∧ I.count 1 = 0 := by
  obtain ⟨P, I, W, T, h, -, -, -, h5⟩ := C118_bands (o := exO) (e := 1 / 2) (ip := true) (bg := false) (nrm := none) ⟨_, rfl⟩ (Or.inl rfl)
  refine ⟨P, I, W, T, h, ?_, ?_⟩
  · rw [h5, if_pos ⟨(-1, 1), rfl, by norm_num, by norm_num⟩]; rfl
  · rw [h5, if_neg]
    rintro ⟨r, h1, h2, h3⟩
    obtain rfl : (3, 4) = r := Option.some.inj h1
    norm_num at h2
-- the area of the left-handed lattice is negative, the normalised weights sum up to 1
example : ∃ P I W T, exO.fermiSamples (1 / 2) true false false (some "total") = .ok (P, I, W, T) ∧ T = -8 ∧ W.sum = 1 := by
  obtain ⟨P, I, W, T, h, h2, -, h4⟩ := C118_area (o := exO) (e := 1 / 2) (ip := true) (bg := false) (nrm := some "total") ⟨_, rfl⟩
    (Or.inr (Or.inr rfl))
  have hT : T = -8 := by rw [h2, exO_cut]; simp [exO]; norm_num
  exact ⟨P, I, W, T, h, hT, h4 rfl rfl (by rw [hT]; norm_num)⟩
example : ∃ P I W T, exO.fermiSamples (1 / 2) true false false (some "band") = .ok (P, I, W, T) ∧ Spec.bandSum I W 0 = 1 := by
  obtain ⟨P, I, W, T, h, h2⟩ := C118_band_sum (o := exO) (e := 1 / 2) (ip := true) ⟨_, rfl⟩ (by norm_num [exO]) (by norm_num [exO])
  exact ⟨P, I, W, T, h, h2 0 (-1, 1) rfl (by norm_num) (by norm_num) (by simp [exO]; norm_num)⟩
-- the point (1, 0, 0) at the energy 2 moves to the energy 1/2 + 3/2 e-20 / (e-20 + 4)
example (P I W T) (h : exO.fermiSamples (1 / 2) true false false none = .ok (P, I, W, T)) (p : V3) (hp : (p, 0) ∈ P.zip I) :
    |2 * p 0 - 1 / 2| ≤ 1 / 10 ^ 19 := by
  obtain ⟨s, hs, h1⟩ := C118_newton (o := exO) _ _ rfl rfl (Or.inl rfl) P I W T h p 0 hp 0 ![2, 0, 0] (exO_affine 0)
  simp only [Fin.sum_univ_three, Matrix.cons_val_zero, Matrix.cons_val_one, Matrix.cons_val] at h1
  rw [h1]
  simp only [exO, List.mem_cons, List.not_mem_nil, or_false] at hs
  rcases hs with rfl | rfl <;> norm_num [abs_le]
-- with `improved_weights` it moves to (nearly) 0 instead of 1/2
example : ∃ P I W T, exO.fermiSamples (1 / 2) true true false none = .ok (P, I, W, T) ∧ ∀ p, (p, 0) ∈ P.zip I → |2 * p 0| ≤ 1 / 10 ^ 19 := by
  obtain ⟨P, I, W, T, h, -, h2⟩ := C118_energy_forgotten (o := exO) (e := 1 / 2) (bg := false) (nrm := none) _ _ rfl rfl (Or.inl rfl) (by simp)
  refine ⟨P, I, W, T, h, fun p hp => ?_⟩
  obtain ⟨s, hs, h1⟩ := h2 p 0 hp 0 ![2, 0, 0] (exO_affine 0)
  simp only [Fin.sum_univ_three, Matrix.cons_val_zero, Matrix.cons_val_one, Matrix.cons_val] at h1
  rw [h1]
  simp only [exO, List.mem_cons, List.not_mem_nil, or_false] at hs
  rcases hs with rfl | rfl <;> norm_num [abs_le]
-- with the gradients of length 2 the "normalised" weights sum up to less than 51/100
example : ∃ P I W T, Obj.fermiSamples { exO with grad := none } (1 / 2) true false true (some "total") = .ok (P, I, W, T) ∧
    W.sum ≤ 51 / 100 := by
  obtain ⟨P, I, W, T, h, h2⟩ := C118_gradient_sum (o := { exO with grad := none }) (e := 1 / 2) (ip := true) ⟨_, rfl⟩ rfl (by norm_num [exO])
  refine ⟨P, I, W, T, h, ?_⟩
  have hc : Obj.cut { exO with grad := none } (1 / 2) = [0] := exO_cut
  have hn : norm3 ![2, 0, 0] = 2 := by
    unfold norm3
    rw [show ∑ c, (![2, 0, 0] : V3) c ^ 2 = 2 ^ 2 by simp [Fin.sum_univ_three]]
    exact Real.sqrt_sq (by norm_num)
  rw [h2, hc]
  simp only [exO, List.map_cons, List.map_nil, List.sum_cons, List.sum_nil, hn]
  norm_num
example : ∃ P I W T, Obj.fermiSamples { exO with grad := none } (1 / 2) true false true (some "band") = .ok (P, I, W, T) ∧
    Spec.bandSum I W 0 ≤ 51 / 100 := by
  obtain ⟨P, I, W, T, h, h2⟩ := C118_gradient_band_sum (o := { exO with grad := none }) (e := 1 / 2) (ip := true) ⟨_, rfl⟩ rfl (by norm_num [exO])
    (by norm_num [exO])
  refine ⟨P, I, W, T, h, ?_⟩
  have hn : norm3 ![2, 0, 0] = 2 := by
    unfold norm3
    rw [show ∑ c, (![2, 0, 0] : V3) c ^ 2 = 2 ^ 2 by simp [Fin.sum_univ_three]]
    exact Real.sqrt_sq (by norm_num)
  rw [h2 0 (-1, 1) rfl (by norm_num) (by norm_num)]
  simp only [exO, List.map_cons, List.map_nil, List.sum_cons, List.sum_nil, hn]
  norm_num
example (P I W T) (h : Obj.fermiSamples { exO with grad := none } (1 / 2) true false false none = .ok (P, I, W, T)) (p : V3) (hp : (p, 0) ∈ P.zip I) :
    |2 * p 0 - 1 / 2| ≤ 1 / 10 ^ 19 := by
  obtain ⟨s, hs, h1⟩ := C118_newton_samples (o := { exO with grad := none }) _ rfl rfl (Or.inl rfl) P I W T h p 0 hp 0 ![2, 0, 0]
    (fun x => (exO_affine 0 x).1) (by
      intro s hs
      simp only [exO, List.mem_cons, List.not_mem_nil, or_false] at hs
      rcases hs with rfl | rfl <;> rfl)
  simp only [Fin.sum_univ_three, Matrix.cons_val_zero, Matrix.cons_val_one, Matrix.cons_val] at h1
  rw [h1]
  simp only [exO, List.mem_cons, List.not_mem_nil, or_false] at hs
  rcases hs with rfl | rfl <;> norm_num [abs_le]
example : ∃ P I W T, exO.fermiSamples (1 / 2) false false false none = .ok (P, I, W, T) ∧
    T = exO.detA * ((exO.cut (1 / 2)).map fun i => ((exO.samples i (1 / 2)).map Smpl.w).sum).sum ∧ W.sum = T ∧ T < 0 :=
  C118_det (o := exO) ⟨_, rfl⟩ rfl (by intro i s hs; simp only [exO, List.mem_cons, List.not_mem_nil, or_false] at hs; rcases hs with rfl | rfl <;> norm_num)
    ⟨0, by rw [exO_cut]; simp, by simp [exO]⟩ (by norm_num [exO])
-- a cut perpendicular to the first axis of a stretched cube: areas grow by 3 · 5
example : Spec.area ((Matrix.diagonal ![2, 3, 5] : Matrix (Fin 3) (Fin 3) ℝ).mulVec ![0, 1, 0]) ((Matrix.diagonal ![2, 3, 5]).mulVec ![0, 1, 1]) =
    areaScale (Matrix.diagonal ![2, 3, 5]) 1 1 * Spec.area ![0, 1, 0] ![0, 1, 1] := by
  have hd : (Matrix.diagonal ![2, 3, 5] : Matrix (Fin 3) (Fin 3) ℝ).det ≠ 0 := by
    rw [Matrix.det_diagonal]; simp [Fin.prod_univ_three]
  have hi : (Matrix.diagonal ![2, 3, 5] : Matrix (Fin 3) (Fin 3) ℝ)⁻¹ = Matrix.diagonal ![1 / 2, 1 / 3, 1 / 5] := by
    refine Matrix.inv_eq_right_inv ?_
    rw [Matrix.diagonal_mul_diagonal, ← Matrix.diagonal_one]
    congr 1
    funext a
    fin_cases a <;> simp
  refine C118_plane_area _ 1 1 ![4, 0, 0] hd ?_ ⟨by simp, 4, ?_⟩ ⟨by simp, 2, ?_⟩ _ _ ?_ ?_
  · intro h; have := congrFun h 0; norm_num at this
  · intro a; fin_cases a <;> simp [Matrix.one_apply]
  · intro a
    rw [hi, Matrix.vecMul_diagonal]
    fin_cases a <;> simp [Matrix.one_apply]
    norm_num
  · simp [dotProduct, Fin.sum_univ_three]
  · simp [dotProduct, Fin.sum_univ_three]
example (L Q Q2 : Matrix (Fin 3) (Fin 3) ℝ) (n : V3) (hL : L.det ≠ 0) (hn : n ≠ 0) (hQ : Spec.IsQ Q n)
    (hQ2 : Spec.IsQ Q2 (Matrix.vecMul n L⁻¹)) : 0 < areaScale L Q Q2 := by
  rw [C118_scale L Q Q2 n hL hn hQ hQ2]
  have h1 := (norm3_nonneg n).lt_of_ne (norm3_ne hn).symm
  have hne : Matrix.vecMul n L⁻¹ ≠ 0 := by
    intro h
    have hnn : Matrix.vecMul (Matrix.vecMul n L⁻¹) L = n := by
      rw [Matrix.vecMul_vecMul, Matrix.nonsing_inv_mul _ (isUnit_iff_ne_zero.2 hL), Matrix.vecMul_one]
    rw [h, Matrix.zero_vecMul] at hnn
    exact hn hnn.symm
  have h2 := (norm3_nonneg _).lt_of_ne (norm3_ne hne).symm
  have := abs_pos.2 hL
  positivity
-- a cube of a grid with three different steps, cut perpendicular to the first axis
example : ∃ (c : Cut), c.normal ≠ 0 ∧ Spec.IsQ 1 c.normal ∧ Spec.IsQ 1 (Matrix.vecMul c.normal (stepMatrix 1 ![1 / 2, 1 / 3, 1 / 5])⁻¹) ∧
    c.scale = areaScale (stepMatrix 1 ![1 / 2, 1 / 3, 1 / 5]) 1 1 := by
  have hi : (stepMatrix 1 ![1 / 2, 1 / 3, 1 / 5])⁻¹ = Matrix.diagonal ![2, 3, 5] := by
    refine Matrix.inv_eq_right_inv ?_
    rw [stepMatrix, Matrix.one_mul, Matrix.diagonal_mul_diagonal, ← Matrix.diagonal_one]
    congr 1
    funext a
    fin_cases a <;> simp
  refine ⟨⟨1, 0, 0, ![4, 0, 0], _⟩, ?_, ⟨by simp, 4, ?_⟩, ⟨by simp, 8, ?_⟩, rfl⟩
  · intro h; have := congrFun h 0; norm_num at this
  · intro a; fin_cases a <;> simp [Matrix.one_apply]
  · intro a
    rw [hi, Matrix.vecMul_diagonal]
    fin_cases a <;> simp [Matrix.one_apply]
    norm_num
-- of two cuts the small one is left out
example : (cubeSamples 1 ![1 / 4, 1 / 4, 1 / 4] [⟨1 / 2, 0, ![1, 0, 0], ![1, 0, 0], 1⟩, ⟨1 / 20000, 0, 0, ![1, 0, 0], 1⟩]).length = 1 := by
  simp only [cubeSamples, List.filter_cons, List.filter_nil, List.length_map]
  norm_num
example (s : Smpl) (h : s ∈ cubeSamples 1 ![1 / 4, 1 / 4, 1 / 4] [⟨1 / 2, 0, ![1, 0, 0], ![1, 0, 0], 1⟩]) : s.w = 1 / 2 := by
  obtain ⟨c, hc, -, h1, -⟩ := C118_cube_gradient _ _ _ (by simp) (by intro a; fin_cases a <;> norm_num) s h
  rw [h1, List.mem_singleton.1 hc]
  norm_num

end TB.FermiSamples
