import Mathlib.Algebra.Order.Round
import Mathlib.Tactic.FinCases
import Verif.Props.RealizeAverage

/-!
# Property C112: `interpolate`
-/

set_option linter.unusedSectionVars false

namespace TB
open Spec

variable {K : Type} [Field K] [LinearOrder K] [IsStrictOrderedRing K] {d B : ℕ}

/-- The interpolation method returns the given values at the grid points. -/
def Spec.Interpolates (R : Rgi K d B) : Prop :=
  ∀ (axes : Fin d → List K) (v : (Fin d → ℕ) → Fin B → K) (idx : Fin d → ℕ) (x : Vec K d), (∀ i, (axes i).Pairwise (· < ·)) →
    (∀ i, (axes i)[idx i]? = some (x i)) → R.eval axes v x = v idx

/-- The `grid` argument fits to the grid with the coordinates `A`: its shape, or no argument and equally many points along all axes. -/
def Spec.GridArg (A : Fin d → List K) (grid : Option (Fin d → ℕ)) : Prop :=
  grid = some (fun i => (A i).length) ∨ grid = none ∧ ∃ m, ∀ i, (A i).length = m

theorem head_le {l : List K} (h : l.Pairwise (· < ·)) (hne : l ≠ []) : ∀ a ∈ l, l.head hne ≤ a := by
  cases l with
  | nil => exact absurd rfl hne
  | cons x l =>
    intro a ha
    rcases List.mem_cons.1 ha with rfl | ha
    · exact le_refl _
    · exact ((List.pairwise_cons.1 h).1 a ha).le

theorem le_last {l : List K} (h : l.Pairwise (· < ·)) (hne : l ≠ []) : ∀ a ∈ l, a ≤ l.getLast hne := by
  intro a ha
  have hl := List.dropLast_append_getLast hne
  rw [← hl] at h ha
  rw [List.pairwise_append] at h
  rcases List.mem_append.1 ha with h1 | h1
  · exact (h.2.2 a h1 _ (by simp)).le
  · rw [List.mem_singleton.1 h1]

/-- When the extended coordinates are strictly ascending. -/
theorem extAxis_pairwise {l : List K} (h : l.Pairwise (· < ·)) (hne : l ≠ []) :
    (extAxis l).Pairwise (· < ·) ↔ 2 ≤ l.length ∧ ∀ a ∈ l, ∀ b ∈ l, b - a < 1 := by
  have h1 := head_le h hne
  have h2 := le_last h hne
  have hhl : l.head hne ≤ l.getLast hne := h1 _ (List.getLast_mem hne)
  have hpos := List.length_pos_of_ne_nil hne
  have hsec : l.getD (1 % l.length) 0 ∈ l := by
    rw [List.getD_eq_getElem _ _ (Nat.mod_lt _ hpos)]; exact List.getElem_mem _
  rw [extAxis_eq l hne, List.cons_append, List.pairwise_cons, List.pairwise_append]
  constructor
  · rintro ⟨g1, -, g3, g4⟩
    have g5 : l.getLast hne - 1 < l.head hne := g1 _ (List.mem_append_left _ (List.head_mem hne))
    refine ⟨?_, fun a ha b hb => by linarith [h1 a ha, h2 b hb]⟩
    by_contra hlt
    have hl1 : l.length = 1 := by omega
    rw [List.pairwise_pair] at g3
    rw [hl1, show 1 % 1 = 0 from rfl, List.getD_eq_getElem _ _ (by omega), List.head_eq_getElem] at g3
    exact lt_irrefl _ g3
  · rintro ⟨g1, g2⟩
    have g3 := g2 _ (List.head_mem hne) _ (List.getLast_mem hne)
    have g4 : l.head hne < l.getD (1 % l.length) 0 := by
      rw [Nat.mod_eq_of_lt (by omega), List.getD_eq_getElem _ _ (by omega), List.head_eq_getElem]
      exact List.pairwise_iff_getElem.1 h 0 1 (by omega) (by omega) (by omega)
    refine ⟨?_, h, ?_, ?_⟩
    · intro a ha
      rcases List.mem_append.1 ha with ha | ha
      · linarith [h1 a ha]
      · simp only [List.mem_cons, List.not_mem_nil, or_false] at ha
        rcases ha with rfl | rfl
        · linarith
        · linarith
    · rw [List.pairwise_pair]; linarith
    · intro a ha b hb
      have := h2 a ha
      simp only [List.mem_cons, List.not_mem_nil, or_false] at hb
      rcases hb with rfl | rfl <;> linarith

theorem extAxis_not_desc {l : List K} (hne : l ≠ []) : ¬ (extAxis l).Pairwise (· > ·) := by
  rw [extAxis_eq l hne, List.cons_append, List.pairwise_cons, List.pairwise_append]
  rintro ⟨-, -, -, h⟩
  have := h _ (List.head_mem hne) (l.head hne + 1) (by simp)
  linarith

/-- A list of at least two points cannot be both ascending and descending; one point is both. -/
theorem make_ok {R : Rgi K d B} {axes : Fin d → List K} {v : (Fin d → ℕ) → Fin B → K} (h : ∀ i, (axes i).Pairwise (· < ·))
    (hm : ∀ i, R.minPts ≤ (axes i).length) :
    R.make axes v = .ok fun x => if ∀ i, (∃ a ∈ axes i, a ≤ x i) ∧ ∃ a ∈ axes i, x i ≤ a then .ok (R.eval axes v x) else .error .valueError := by
  rw [Rgi.make, if_pos fun i => ⟨hm i, Or.inl (h i)⟩]

section core
variable {κ : K → K} {A : Fin d → List K} {data : List (Vec K d × (Fin B → K))} {grid : Option (Fin d → ℕ)}

theorem gridArg_shape (hd : 0 < d) (hA : IsGrid A (data.map Prod.fst)) (hκ : KeyOk κ A) (hgrid : GridArg A grid) :
    gridShape data.length grid = fun i => (A i).length := by
  rcases hgrid with rfl | ⟨rfl, m, hm⟩
  · rfl
  · have : data.length = m ^ d := by
      rw [← grid_length hA hκ]; simp [hm]
    funext i
    rw [this, hm i]
    exact defaultGrid_pow hd m

theorem interpolateGrid_plain [FloorRing K] (R : Rgi K d B) (hd : 0 < d) (hd3 : d ≤ 3) (hA : IsGrid A (data.map Prod.fst)) (hκ : KeyOk κ A) (hne : data ≠ [])
    (hgrid : GridArg A grid) :
    ∃ v : (Fin d → ℕ) → Fin B → K, (∀ idx x, (∀ i, (A i)[idx i]? = some (x i)) → (x, v idx) ∈ data) ∧
      interpolateGrid R κ data false grid = R.make A v := by
  refine ⟨_, fun idx x hx => (grid_at hA hκ idx x hx).2, ?_⟩
  unfold interpolateGrid
  dsimp only
  rw [gridArg_shape hd hA hκ hgrid, if_neg (by simpa using grid_length hA hκ), if_neg (by omega)]
  simp only [Bool.false_eq_true, if_false]
  rw [grid_axis hA hκ hne]
  generalize R.make _ _ = r
  cases r <;> rfl

theorem interpolateGrid_periodic [FloorRing K] (R : Rgi K d B) (hd : 0 < d) (hd3 : d ≤ 3) (hA : IsGrid A (data.map Prod.fst)) (hκ : KeyOk κ A)
    (hne : data ≠ []) (hgrid : GridArg A grid) :
    ∃ v : (Fin d → ℕ) → Fin B → K, (∀ (idx : Fin d → ℕ) x, (∀ i, (A i)[takeWrap (A i).length (idx i)]? = some (x i)) → (x, v idx) ∈ data) ∧
      interpolateGrid R κ data true grid = (match R.make (fun i => extAxis (A i)) v with
        | .error e => .error e
        | .ok f => .ok fun k => f fun i => wrapCell (k i)) := by
  obtain ⟨h1, h2⟩ := grid_ext hA hκ hne
  refine ⟨_, h2, ?_⟩
  unfold interpolateGrid
  dsimp only
  rw [gridArg_shape hd hA hκ hgrid, if_neg (by simpa using grid_length hA hκ), if_neg (by omega)]
  simp only [if_true]
  rw [h1]
  generalize R.make _ _ = r
  cases r <;> rfl

theorem data_unique (hA : IsGrid A (data.map Prod.fst)) {k : Vec K d} {v w : Fin B → K} (hv : (k, v) ∈ data) (hw : (k, w) ∈ data) : v = w :=
  congrArg Prod.snd (List.inj_on_of_nodup_map hA.2.1 hv hw rfl)

/-- Non-periodic interpolation of grid data. -/
theorem plain_core [FloorRing K] (R : Rgi K d B) (hR : Interpolates R) (hd : 0 < d) (hd3 : d ≤ 3) (hA : IsGrid A (data.map Prod.fst)) (hκ : KeyOk κ A)
    (hne : data ≠ []) (hgrid : GridArg A grid) :
    ((∀ i, R.minPts ≤ (A i).length) → ∃ f, interpolateGrid R κ data false grid = .ok f ∧ (∀ k v, (k, v) ∈ data → f k = .ok v) ∧
      ∀ x, ((∀ i, ∃ a ∈ A i, ∃ b ∈ A i, a ≤ x i ∧ x i ≤ b) → ∃ v, f x = .ok v) ∧
        ((∃ i, (∀ a ∈ A i, x i < a) ∨ ∀ a ∈ A i, a < x i) → f x = .error .valueError)) ∧
    ((∃ i, (A i).length < R.minPts) → interpolateGrid R κ data false grid = .error .valueError) := by
  obtain ⟨v, hv, he⟩ := interpolateGrid_plain R hd hd3 hA hκ hne hgrid
  rw [he]
  refine ⟨?_, ?_⟩
  · intro hm
    refine ⟨_, make_ok hA.1 hm, ?_, ?_⟩
    · intro k w hk
      have hin := (hA.2.2 k).1 (List.mem_map.2 ⟨_, hk, rfl⟩)
      have hidx : ∀ i, ∃ j, (A i)[j]? = some (k i) := fun i => List.mem_iff_getElem?.1 (hin i)
      choose idx hidx using hidx
      rw [if_pos fun i => ⟨⟨k i, hin i, le_refl _⟩, k i, hin i, le_refl _⟩, hR A v idx k hA.1 hidx]
      exact congrArg _ (data_unique hA (hv idx k hidx) hk)
    · intro x
      refine ⟨?_, ?_⟩
      · intro h
        rw [if_pos]
        · exact ⟨_, rfl⟩
        · intro i
          obtain ⟨a, ha, b, hb, h1, h2⟩ := h i
          exact ⟨⟨a, ha, h1⟩, b, hb, h2⟩
      · rintro ⟨i, h⟩
        rw [if_neg]
        intro hall
        obtain ⟨⟨a, ha, h1⟩, b, hb, h2⟩ := hall i
        rcases h with h | h
        · exact absurd h1 (h a ha).not_ge
        · exact absurd h2 (h b hb).not_ge
  · rintro ⟨i, hi⟩
    rw [Rgi.make, if_neg]
    intro h
    have := (h i).1
    omega

theorem wrapCell_mem [FloorRing K] (x : K) : -(1 / 2) ≤ wrapCell x ∧ wrapCell x < 1 / 2 := by
  unfold wrapCell
  have h1 := Int.fract_nonneg (x + 1 / 2)
  have h2 := Int.fract_lt_one (x + 1 / 2)
  constructor <;> linarith

theorem wrapCell_add_int [FloorRing K] (x : K) (m : ℤ) : wrapCell (x + m) = wrapCell x := by
  unfold wrapCell
  rw [show x + m + 1 / 2 = x + 1 / 2 + m by ring, Int.fract_add_intCast]

theorem wrapCell_eq [FloorRing K] {x y : K} (m : ℤ) (h : x = y + m) (h1 : -(1 / 2) ≤ y) (h2 : y < 1 / 2) : wrapCell x = y := by
  rw [h, wrapCell_add_int, wrapCell, Int.fract_eq_self.2 ⟨by linarith, by linarith⟩]; ring

/-- Periodic interpolation of grid data. -/
theorem periodic_core [FloorRing K] (R : Rgi K d B) (hR : Interpolates R) (hd : 0 < d) (hd3 : d ≤ 3) (hA : IsGrid A (data.map Prod.fst)) (hκ : KeyOk κ A)
    (hne : data ≠ []) (hgrid : GridArg A grid) :
    ((∀ i, 2 ≤ (A i).length ∧ (∀ a ∈ A i, ∀ b ∈ A i, b - a < 1) ∧ R.minPts ≤ (A i).length + 3) →
      ∃ f, interpolateGrid R κ data true grid = .ok f ∧ (∀ x (m : Fin d → ℤ), f (fun i => x i + m i) = f x) ∧
        ((∀ i, ∀ a ∈ A i, -(1 / 2) ≤ a ∧ a ≤ 1 / 2) → (∀ x, ∃ v, f x = .ok v) ∧ ∀ k v, (k, v) ∈ data → f k = .ok v) ∧
        ∀ x, (∃ i, 1 / 2 ≤ x i ∧ x i < 3 / 2 ∧ ∃ b ∈ A i, x i < b) → f x = .error .valueError) ∧
    ((∃ i, (A i).length = 1 ∨ (∃ a ∈ A i, ∃ b ∈ A i, 1 ≤ b - a) ∨ (A i).length + 3 < R.minPts) →
      interpolateGrid R κ data true grid = .error .valueError) := by
  obtain ⟨v, hv, he⟩ := interpolateGrid_periodic R hd hd3 hA hκ hne hgrid
  have hAne := grid_pos hA hne
  rw [he]
  refine ⟨?_, ?_⟩
  · intro hm
    have hasc : ∀ i, (extAxis (A i)).Pairwise (· < ·) := fun i => (extAxis_pairwise (hA.1 i) (hAne i)).2 ⟨(hm i).1, (hm i).2.1⟩
    obtain ⟨F, hF, hFx⟩ : ∃ F, R.make (fun i => extAxis (A i)) v = .ok F ∧ ∀ x, F x =
        if ∀ i, (∃ a ∈ extAxis (A i), a ≤ x i) ∧ ∃ a ∈ extAxis (A i), x i ≤ a then .ok (R.eval (fun i => extAxis (A i)) v x) else .error .valueError :=
      ⟨_, make_ok hasc fun i => by rw [extAxis_length]; exact (hm i).2.2, fun _ => rfl⟩
    rw [hF]
    refine ⟨_, rfl, ?_, ?_, ?_⟩
    · intro x m
      have : (fun i => wrapCell (x i + (m i : K))) = fun i => wrapCell (x i) := funext fun i => wrapCell_add_int _ _
      exact congrArg F this
    · intro hcell
      have hbd : ∀ (x : Vec K d) i, (∃ a ∈ extAxis (A i), a ≤ wrapCell (x i)) ∧ ∃ a ∈ extAxis (A i), wrapCell (x i) ≤ a := by
        intro x i
        obtain ⟨h1, h2⟩ := wrapCell_mem (x i)
        have h3 := hcell i _ (List.getLast_mem (hAne i))
        have h4 := hcell i _ (List.head_mem (hAne i))
        rw [extAxis_eq (A i) (hAne i)]
        exact ⟨⟨_, by simp, show (A i).getLast (hAne i) - 1 ≤ _ by linarith⟩, _, List.mem_append_right _ (List.mem_cons_self ..), by linarith⟩
      refine ⟨fun x => ⟨_, (hFx _).trans (if_pos (hbd x))⟩, ?_⟩
      intro k w hk
      rw [hFx, if_pos (hbd k)]
      have hin := (hA.2.2 k).1 (List.mem_map.2 ⟨_, hk, rfl⟩)
      have hidx : ∀ i, ∃ j, (extAxis (A i))[j]? = some (wrapCell (k i)) ∧ (A i)[takeWrap (A i).length j]? = some (k i) := by
        intro i
        obtain ⟨h1, h2⟩ := hcell i _ (hin i)
        rcases lt_or_eq_of_le h2 with h2 | h2
        · obtain ⟨j, hj⟩ := List.mem_iff_getElem?.1 (hin i)
          have hlt := (List.getElem?_eq_some_iff.1 hj).1
          refine ⟨j + 1, ?_, ?_⟩
          · rw [extAxis_eq (A i) (hAne i), List.cons_append, List.getElem?_cons_succ, List.getElem?_append_left hlt, hj,
              wrapCell_eq 0 (by simp) h1 h2]
          · rw [takeWrap, if_neg (by omega), if_pos (by omega)]; exact hj
        · refine ⟨0, ?_, ?_⟩
          · have hlast : (A i).getLast (hAne i) = k i := by
              refine le_antisymm ?_ (le_last (hA.1 i) (hAne i) _ (hin i))
              rw [h2]; exact (hcell i _ (List.getLast_mem _)).2
            rw [extAxis_eq (A i) (hAne i), List.cons_append, List.getElem?_cons_zero, hlast, h2,
              wrapCell_eq (y := (1 / 2 : K) - 1) 1 (by push_cast; ring) (by linarith) (by linarith)]
          · have hlast : (A i).getLast (hAne i) = k i := by
              refine le_antisymm ?_ (le_last (hA.1 i) (hAne i) _ (hin i))
              rw [h2]; exact (hcell i _ (List.getLast_mem _)).2
            have hpos := List.length_pos_of_ne_nil (hAne i)
            rw [show takeWrap (A i).length 0 = (A i).length - 1 from rfl, List.getElem?_eq_getElem (by omega), ← hlast, List.getLast_eq_getElem]
      choose idx h1 h2 using hidx
      rw [hR _ v idx _ hasc h1]
      exact congrArg _ (data_unique hA (hv idx k h2) hk)
    · rintro x ⟨i, h1, h2, b, hb, h3⟩
      rw [hFx, if_neg]
      intro hall
      obtain ⟨⟨a, ha, h4⟩, -⟩ := hall i
      have hw : wrapCell (x i) = x i - 1 := wrapCell_eq 1 (by push_cast; ring) (by linarith) (by linarith)
      rw [hw] at h4
      have hlow : (A i).getLast (hAne i) - 1 ≤ a := by
        have hp := hasc i
        rw [extAxis_eq (A i) (hAne i), List.cons_append] at ha hp
        rcases List.mem_cons.1 ha with rfl | ha
        · exact le_refl _
        · exact ((List.pairwise_cons.1 hp).1 a ha).le
      have := le_last (hA.1 i) (hAne i) b hb
      linarith
  · rintro ⟨i, hi⟩
    rw [Rgi.make, if_neg]
    intro h
    obtain ⟨h1, h2⟩ := h i
    rw [extAxis_length] at h1
    have h3 := (extAxis_pairwise (hA.1 i) (hAne i)).1 (h2.resolve_right (extAxis_not_desc (hAne i)))
    rcases hi with hi | ⟨a, ha, b, hb, hi⟩ | hi
    · omega
    · exact absurd (h3.2 a ha b hb) hi.not_gt
    · omega

end core

theorem zip_ne {ks : List (Vec K d)} {bands : List (Fin B → K)} (hne : ks ≠ []) (hlen : ks.length = bands.length) : ks.zip bands ≠ [] := by
  intro h
  have h1 := congrArg List.length h
  have h2 := List.length_pos_of_ne_nil hne
  rw [List.length_zip, ← hlen, Nat.min_self, List.length_nil] at h1
  omega

theorem zip_fst {ks : List (Vec K d)} {bands : List (Fin B → K)} (hlen : ks.length = bands.length) : (ks.zip bands).map Prod.fst = ks := by
  rw [List.map_fst_zip]; omega

theorem mem_zip {ks : List (Vec K d)} {bands : List (Fin B → K)} {j : ℕ} {k : Vec K d} {v : Fin B → K} (hk : ks[j]? = some k) (hv : bands[j]? = some v) :
    (k, v) ∈ ks.zip bands := by
  refine List.mem_of_getElem? (i := j) ?_
  rw [List.getElem?_zip_eq_some]
  exact ⟨hk, hv⟩

theorem interpolate_none [FloorRing K] (R : Rgi K d B) (κ : K → K) {ks : List (Vec K d)} {bands : List (Fin B → K)} (hne : ks ≠ [])
    (hlen : ks.length = bands.length) (periodic : Bool) (grid : Option (Fin d → ℕ)) :
    interpolate R κ ks bands none periodic grid = interpolateGrid R κ (ks.zip bands) periodic grid := by
  rw [interpolate, if_neg (by simp [hne, hlen])]

/-- **C112** For samples that form a grid, in any order, `interpolate(periodic=False)` returns a function that reproduces all samples, is defined inside the
range of the samples and raises `ValueError` outside; grids with too few points for the method raise `ValueError`. -/
theorem C112_grid [FloorRing K] (R : Rgi K d B) (hR : Interpolates R) (hd : 0 < d) (hd3 : d ≤ 3) (κ : K → K) (ks : List (Vec K d))
    (bands : List (Fin B → K)) (hne : ks ≠ []) (hlen : ks.length = bands.length) (A : Fin d → List K) (hA : IsGrid A ks) (hκ : KeyOk κ A)
    (grid : Option (Fin d → ℕ)) (hgrid : GridArg A grid) :
    ((∀ i, R.minPts ≤ (A i).length) → ∃ f, interpolate R κ ks bands none false grid = .ok f ∧
      (∀ (j : ℕ) k v, ks[j]? = some k → bands[j]? = some v → f k = .ok v) ∧
      ∀ x, ((∀ i, ∃ a ∈ A i, ∃ b ∈ A i, a ≤ x i ∧ x i ≤ b) → ∃ v, f x = .ok v) ∧
        ((∃ i, (∀ a ∈ A i, x i < a) ∨ ∀ a ∈ A i, a < x i) → f x = .error .valueError)) ∧
    ((∃ i, (A i).length < R.minPts) → interpolate R κ ks bands none false grid = .error .valueError) := by
  rw [interpolate_none R κ hne hlen]
  obtain ⟨h1, h2⟩ := plain_core R hR hd hd3 (data := ks.zip bands) (by rw [zip_fst hlen]; exact hA) hκ (zip_ne hne hlen) hgrid
  refine ⟨fun h => ?_, h2⟩
  obtain ⟨f, e1, e2, e3⟩ := h1 h
  exact ⟨f, e1, fun j k v hk hv => e2 k v (mem_zip hk hv), e3⟩

/-- **C112** `interpolate(periodic=True)` of samples that form a grid returns exactly if every axis has at least two points and spans less than one period
(and the method has enough points); otherwise it raises `ValueError`.  The returned function has period one along all axes.  For samples in the cell
`[-1/2, 1/2]` it is defined everywhere and reproduces the samples. -/
theorem C112_periodic [FloorRing K] (R : Rgi K d B) (hR : Interpolates R) (hd : 0 < d) (hd3 : d ≤ 3) (κ : K → K) (ks : List (Vec K d))
    (bands : List (Fin B → K)) (hne : ks ≠ []) (hlen : ks.length = bands.length) (A : Fin d → List K) (hA : IsGrid A ks) (hκ : KeyOk κ A)
    (grid : Option (Fin d → ℕ)) (hgrid : GridArg A grid) :
    ((∀ i, 2 ≤ (A i).length ∧ (∀ a ∈ A i, ∀ b ∈ A i, b - a < 1) ∧ R.minPts ≤ (A i).length + 3) →
      ∃ f, interpolate R κ ks bands none true grid = .ok f ∧ (∀ x (m : Fin d → ℤ), f (fun i => x i + m i) = f x) ∧
        ((∀ i, ∀ a ∈ A i, -(1 / 2) ≤ a ∧ a ≤ 1 / 2) →
          (∀ x, ∃ v, f x = .ok v) ∧ ∀ (j : ℕ) k v, ks[j]? = some k → bands[j]? = some v → f k = .ok v)) ∧
    ((∃ i, (A i).length = 1 ∨ (∃ a ∈ A i, ∃ b ∈ A i, 1 ≤ b - a) ∨ (A i).length + 3 < R.minPts) →
      interpolate R κ ks bands none true grid = .error .valueError) := by
  rw [interpolate_none R κ hne hlen]
  obtain ⟨h1, h2⟩ := periodic_core R hR hd hd3 (data := ks.zip bands) (by rw [zip_fst hlen]; exact hA) hκ (zip_ne hne hlen) hgrid
  refine ⟨fun h => ?_, h2⟩
  obtain ⟨f, e1, e2, e3, -⟩ := h1 h
  exact ⟨f, e1, e2, fun hc => ⟨(e3 hc).1, fun j k v hk hv => (e3 hc).2 k v (mem_zip hk hv)⟩⟩

/-- **C112** (disagreement with the documentation, "the interpolator will work for any k") For samples outside of `[-1/2, 1/2]` the periodic interpolator
raises `ValueError` at its own samples: at every point with a coordinate in `[1/2, 3/2)` below the last one of its axis. -/
theorem C112_range_defect [FloorRing K] (R : Rgi K d B) (hR : Interpolates R) (hd : 0 < d) (hd3 : d ≤ 3) (κ : K → K) (ks : List (Vec K d))
    (bands : List (Fin B → K)) (hne : ks ≠ []) (hlen : ks.length = bands.length) (A : Fin d → List K) (hA : IsGrid A ks) (hκ : KeyOk κ A)
    (grid : Option (Fin d → ℕ)) (hgrid : GridArg A grid)
    (hm : ∀ i, 2 ≤ (A i).length ∧ (∀ a ∈ A i, ∀ b ∈ A i, b - a < 1) ∧ R.minPts ≤ (A i).length + 3) :
    ∃ f, interpolate R κ ks bands none true grid = .ok f ∧
      ∀ k ∈ ks, (∃ i, 1 / 2 ≤ k i ∧ k i < 3 / 2 ∧ ∃ b ∈ A i, k i < b) → f k = .error .valueError := by
  rw [interpolate_none R κ hne hlen]
  obtain ⟨h1, -⟩ := periodic_core R hR hd hd3 (data := ks.zip bands) (by rw [zip_fst hlen]; exact hA) hκ (zip_ne hne hlen) hgrid
  obtain ⟨f, e1, -, -, e4⟩ := h1 hm
  exact ⟨f, e1, fun k _ => e4 k⟩

/-- **C112** With a symmetry: if the images of the samples (folded into the cell in the periodic case) form a grid and equivalent samples have equal rows,
the returned function has at every image the row of the sample. -/
theorem C112_symmetric [FloorRing K] (R : Rgi K d B) (hR : Interpolates R) (hd : 0 < d) (hd3 : d ≤ 3) (κ : K → K) (ks : List (Vec K d))
    (bands : List (Fin B → K)) (hne : ks ≠ []) (hlen : ks.length = bands.length) (σ : Sym K d) (hg : IsMatGroup σ.ops) (periodic : Bool)
    (hcons : ∀ (i j : ℕ) (a b : Vec K d), ks[i]? = some a → ks[j]? = some b →
      (∃ s ∈ σ.ops, ∃ t ∈ σ.ops, Spec.fold periodic (s.mulVec a) = Spec.fold periodic (t.mulVec b)) → bands[i]? = bands[j]?)
    (A : Fin d → List K) (hAsc : ∀ i, (A i).Pairwise (· < ·))
    (hA : ∀ x, (∃ k ∈ ks, ∃ s ∈ σ.ops, x = Spec.fold periodic (s.mulVec k)) ↔ ∀ i, x i ∈ A i) (hκ : KeyOk κ A)
    (grid : Option (Fin d → ℕ)) (hgrid : GridArg A grid)
    (hm : ∀ i, if periodic then 2 ≤ (A i).length ∧ R.minPts ≤ (A i).length + 3 else R.minPts ≤ (A i).length) :
    ∃ f, interpolate R κ ks bands (some σ) periodic grid = .ok f ∧
      ∀ (j : ℕ) k v, ks[j]? = some k → bands[j]? = some v → ∀ s ∈ σ.ops, f (s.mulVec k) = .ok v := by
  obtain ⟨out, h1, h2⟩ := C111_consistent σ hg κ periodic ks hne bands hlen.le hcons
  obtain ⟨out', h1', h3, h4⟩ := C111_average σ hg κ periodic ks hne bands hlen.le
  rw [h1] at h1'
  obtain rfl := Except.ok.inj h1'
  have hinA : ∀ x ∈ out.map Prod.fst, ∀ i, x i ∈ A i := fun x hx => (hA x).1 ((h3 x).1 hx)
  have hinj : ∀ i, ∀ a ∈ A i, ∀ b ∈ A i, κ a = κ b → a = b := by
    intro i a ha b hb he
    rcases lt_trichotomy a b with h | h | h
    · exact absurd he (hκ i a ha b hb h).ne
    · exact h
    · exact absurd he.symm (hκ i b hb a ha h).ne
  have hG : IsGrid A (out.map Prod.fst) := by
    refine ⟨hAsc, (h4 ?_).1, fun k => by rw [h3]; exact hA k⟩
    intro x hx y hy he
    funext i
    exact hinj i _ (hinA x hx i) _ (hinA y hy i) (he i)
  have hne' : out ≠ [] := by
    obtain ⟨k, hk⟩ := List.exists_mem_of_ne_nil ks hne
    have := (h3 _).2 ⟨k, hk, 1, hg.one_mem, rfl⟩
    intro hnil
    rw [hnil] at this; simp at this
  have hi : interpolate R κ ks bands (some σ) periodic grid = interpolateGrid R κ out periodic grid := by
    rw [interpolate, if_neg (by simp [hne, hlen])]
    simp only [h1]
  rw [hi]
  cases periodic with
  | false =>
    simp only [Bool.false_eq_true, if_false] at hm
    obtain ⟨f, e1, e2, -⟩ := (plain_core R hR hd hd3 hG hκ hne' hgrid).1 hm
    exact ⟨f, e1, fun j k v hk hv s hs => e2 _ v ((h2 _ v).2 ⟨j, k, hk, hv, s, hs, rfl⟩)⟩
  | true =>
    simp only [if_true] at hm
    have hcell : ∀ i, ∀ a ∈ A i, -(1 / 2) ≤ a ∧ a < 1 / 2 := by
      intro i a ha
      have hAne := grid_pos hG hne'
      have hx := (hA (fun j => if h : j = i then a else (A j).head (hAne j))).2 (by
        intro j
        by_cases h : j = i
        · subst h; simpa using ha
        · simp only [h, dif_neg, not_false_eq_true]; exact List.head_mem _)
      obtain ⟨k, -, s, -, he⟩ := hx
      have h5 := congrFun he i
      simp only [dif_pos, Spec.fold, if_true] at h5
      have h6 := wrapCell_mem (s.mulVec k i)
      have h7 : wrapCell (s.mulVec k i) = s.mulVec k i - ⌊s.mulVec k i + 1 / 2⌋ := by rw [wrapCell, Int.fract]; ring
      rw [h7] at h6
      rw [h5]; exact h6
    obtain ⟨f, e1, e2, e3, -⟩ := (periodic_core R hR hd hd3 hG hκ hne' hgrid).1 fun i =>
      ⟨(hm i).1, fun a ha b hb => by linarith [(hcell i a ha).1, (hcell i b hb).2], (hm i).2⟩
    refine ⟨f, e1, fun j k v hk hv s hs => ?_⟩
    have h5 := (e3 fun i a ha => ⟨(hcell i a ha).1, (hcell i a ha).2.le⟩).2 _ v ((h2 _ v).2 ⟨j, k, hk, hv, s, hs, rfl⟩)
    rw [← h5, ← e2 (Spec.fold true (s.mulVec k)) fun i => ⌊s.mulVec k i + 1 / 2⌋]
    congr 1
    funext i
    simp [Spec.fold]

/-- **C112** No samples, different numbers of samples and rows, and a `grid` whose size is not the number of samples raise `AssertionError`; without a `grid`
the number of samples has to be a `d`-th power.  More than three dimensions raise `ValueError`. -/
theorem C112_errors [FloorRing K] (R : Rgi K d B) (κ : K → K) (ks : List (Vec K d)) (bands : List (Fin B → K)) (periodic : Bool) :
    (∀ sym grid, ks = [] ∨ ks.length ≠ bands.length → interpolate R κ ks bands sym periodic grid = .error .assertionError) ∧
    (ks ≠ [] → ks.length = bands.length →
      (∀ n : Fin d → ℕ, ∏ i, n i ≠ ks.length → interpolate R κ ks bands none periodic (some n) = .error .assertionError) ∧
      ((∀ m : ℕ, m ^ d ≠ ks.length) → interpolate R κ ks bands none periodic none = .error .assertionError) ∧
      (3 < d → ∀ n : Fin d → ℕ, ∏ i, n i = ks.length → interpolate R κ ks bands none periodic (some n) = .error .valueError)) := by
  refine ⟨fun sym grid h => by unfold interpolate; rw [if_pos h], fun hne hlen => ?_⟩
  have hz : (ks.zip bands).length = ks.length := by rw [List.length_zip]; omega
  refine ⟨fun n hn => ?_, fun hm => ?_, fun hd n hn => ?_⟩
  · rw [interpolate_none R κ hne hlen]
    unfold interpolateGrid
    rw [if_pos (by rw [hz]; exact hn)]
  · rw [interpolate_none R κ hne hlen]
    unfold interpolateGrid
    rw [if_pos (by
      rw [hz]
      simp only [gridShape, Finset.prod_const, Finset.card_univ, Fintype.card_fin]
      exact hm _)]
  · rw [interpolate_none R κ hne hlen]
    unfold interpolateGrid
    rw [if_neg (by rw [hz]; simpa [gridShape] using hn), if_pos hd]

/-- **C112** The rounding of the code, `np.round(x + np.pi, 4)`, separates coordinates that differ by at least `1e-4`. -/
theorem C112_key (A : Fin d → List ℝ) (h : ∀ i, ∀ a ∈ A i, ∀ b ∈ A i, a < b → a + 1 / 10000 ≤ b) :
    KeyOk (fun x : ℝ => (round ((x + Real.pi) * 10000) : ℝ) / 10000) A := by
  intro i a ha b hb hab
  have h1 := h i a ha b hb hab
  have h2 : round ((a + Real.pi) * 10000) + 1 ≤ round ((b + Real.pi) * 10000) := by
    rw [← round_add_one]
    rw [round_eq, round_eq]
    apply Int.floor_le_floor
    linarith
  have h3 : ((round ((a + Real.pi) * 10000) : ℤ) : ℝ) < (round ((b + Real.pi) * 10000) : ℤ) := by
    exact_mod_cast (by omega : round ((a + Real.pi) * 10000) < round ((b + Real.pi) * 10000))
  exact div_lt_div_of_pos_right h3 (by norm_num)

/-! ## examples -/

/-- An interpolation method that looks up the grid point. -/
def exRgi (K : Type) [Field K] [LinearOrder K] (d B : ℕ) : Rgi K d B where
  minPts := 2
  eval := fun axes v x => v fun i => (axes i).idxOf (x i)

theorem exRgi_ok : Interpolates (exRgi K d B) := by
  intro axes v idx x hp hx
  show v _ = v _
  congr 1
  funext i
  obtain ⟨hlt, he⟩ := List.getElem?_eq_some_iff.1 (hx i)
  rw [← he]
  exact List.Nodup.idxOf_getElem ((hp i).imp ne_of_lt) _ hlt

/-- Four samples in wrong order. -/
def exGridPts : List (Vec ℚ 2) := [![1, 0], ![0, 2], ![0, 0], ![1, 2]]

def exGridAxes : Fin 2 → List ℚ := ![[0, 1], [0, 2]]

theorem exGrid_isGrid : IsGrid exGridAxes exGridPts := by
  refine ⟨?_, by decide +kernel, ?_⟩
  · intro i; fin_cases i <;> simp [exGridAxes]
  · intro k
    simp only [exGridPts, List.mem_cons, List.not_mem_nil, or_false, Fin.forall_fin_two, exGridAxes, Matrix.cons_val_zero, Matrix.cons_val_one]
    constructor
    · rintro (rfl | rfl | rfl | rfl) <;> simp
    · rintro ⟨h0 | h0, h1 | h1⟩
      · right; right; left; funext i; fin_cases i <;> simp [h0, h1]
      · right; left; funext i; fin_cases i <;> simp [h0, h1]
      · left; funext i; fin_cases i <;> simp [h0, h1]
      · right; right; right; funext i; fin_cases i <;> simp [h0, h1]

theorem keyOk_id (A : Fin d → List ℚ) : KeyOk id A := fun _ _ _ _ _ h => h

theorem exGrid_arg : GridArg exGridAxes none := Or.inr ⟨rfl, 2, fun i => by fin_cases i <;> rfl⟩

example : ∃ f, interpolate (exRgi ℚ 2 1) id exGridPts [![10], ![20], ![30], ![40]] none false none = .ok f ∧ f ![0, 2] = .ok ![20] ∧
    f ![2, 0] = .error .valueError := by
  obtain ⟨f, h1, h2, h3⟩ := (C112_grid (exRgi ℚ 2 1) exRgi_ok (by norm_num) (by norm_num) id exGridPts [![10], ![20], ![30], ![40]] (by simp [exGridPts])
    (by simp [exGridPts]) exGridAxes exGrid_isGrid (keyOk_id _) none exGrid_arg).1 fun i => by fin_cases i <;> simp [exRgi, exGridAxes]
  exact ⟨f, h1, h2 1 _ _ rfl rfl, (h3 _).2 ⟨0, Or.inr (by simp [exGridAxes])⟩⟩

/-- The samples `i / 4` of one period starting at zero, as made by `np.linspace(0, 1, 4, endpoint=False)`. -/
def exLinePts : List (Vec ℚ 1) := [![0], ![1 / 4], ![1 / 2], ![3 / 4]]

def exLineAxes : Fin 1 → List ℚ := ![[0, 1 / 4, 1 / 2, 3 / 4]]

theorem exLine_isGrid : IsGrid exLineAxes exLinePts := by
  refine ⟨?_, by decide +kernel, ?_⟩
  · intro i; fin_cases i; simp [exLineAxes]; norm_num
  · intro k
    have hk : k = ![k 0] := by funext i; rw [Subsingleton.elim i 0]; rfl
    rw [hk]
    simp [exLinePts, exLineAxes]

theorem exLine_arg : GridArg exLineAxes none := Or.inr ⟨rfl, 4, fun i => by fin_cases i; rfl⟩

theorem exLine_span : ∀ i, 2 ≤ (exLineAxes i).length ∧ (∀ a ∈ exLineAxes i, ∀ b ∈ exLineAxes i, b - a < 1) ∧
    (exRgi ℚ 1 1).minPts ≤ (exLineAxes i).length + 3 := by
  intro i
  fin_cases i
  refine ⟨by simp [exLineAxes], ?_, by simp [exLineAxes, exRgi]⟩
  simp [exLineAxes]
  norm_num

/-- The sample `1/2` of the periodic interpolator raises. -/
example : ∃ f, interpolate (exRgi ℚ 1 1) id exLinePts [![10], ![20], ![30], ![40]] none true none = .ok f ∧ f ![1 / 2] = .error .valueError := by
  obtain ⟨f, h1, h2⟩ := C112_range_defect (exRgi ℚ 1 1) exRgi_ok (by norm_num) (by norm_num) id exLinePts [![10], ![20], ![30], ![40]]
    (by simp [exLinePts]) (by simp [exLinePts]) exLineAxes exLine_isGrid (keyOk_id _) none exLine_arg exLine_span
  refine ⟨f, h1, h2 _ (by simp [exLinePts]) ⟨0, ?_, ?_, 3 / 4, ?_, ?_⟩⟩ <;> simp [exLineAxes] <;> norm_num

/-- One sample and its mirror image give both points of the grid. -/
example : ∃ f, interpolate (exRgi ℚ 1 1) id [![1 / 4]] [![3]] (some exMirrorLine) true none = .ok f ∧ f ((-1 : Mat ℚ 1).mulVec ![1 / 4]) = .ok ![3] := by
  have hf : ∀ x : Vec ℚ 1, (∃ k ∈ [(![1 / 4] : Vec ℚ 1)], ∃ s ∈ exMirrorLine.ops, x = Spec.fold true (s.mulVec k)) ↔ x = ![1 / 4] ∨ x = ![-1 / 4] := by
    have e1 : Spec.fold true ((1 : Mat ℚ 1).mulVec ![1 / 4]) = ![1 / 4] := by decide +kernel
    have e2 : Spec.fold true ((-1 : Mat ℚ 1).mulVec ![1 / 4]) = ![-1 / 4] := by decide +kernel
    intro x
    simp only [List.mem_singleton, exists_eq_left, exMirrorLine_ops, List.mem_cons, List.not_mem_nil, or_false, exists_eq_or_imp]
    rw [e1, e2]
  obtain ⟨f, h1, h2⟩ := C112_symmetric (exRgi ℚ 1 1) exRgi_ok (by norm_num) (by norm_num) id [![1 / 4]] [![3]] (by simp) (by simp) exMirrorLine
    exMirrorLine_group true (by
      intro i j a b hi hj _
      have h1 := (List.getElem?_eq_some_iff.1 hi).1
      have h2 := (List.getElem?_eq_some_iff.1 hj).1
      simp at h1 h2
      rw [h1, h2]) (fun _ => [-1 / 4, 1 / 4]) (fun i => by simp; norm_num) (by
      intro x
      rw [hf x]
      have hk : x = ![x 0] := by funext i; rw [Subsingleton.elim i 0]; rfl
      constructor
      · rintro (rfl | rfl) i <;> rw [Subsingleton.elim i 0] <;> simp
      · intro h
        have h0 := h 0
        simp only [List.mem_cons, List.not_mem_nil, or_false] at h0
        rw [hk]
        rcases h0 with h0 | h0 <;> rw [h0] <;> simp) (keyOk_id _) none (Or.inr ⟨rfl, 2, fun _ => rfl⟩) (fun i => by simp [exRgi])
  exact ⟨f, h1, h2 0 _ _ rfl rfl _ (by simp [exMirrorLine_ops])⟩

/-! ## samples that do not form a grid -/

/-- Four samples that are not a grid. -/
def exSkew : List (Vec ℚ 2) := [![0, 0], ![0, 1], ![1, 1 / 2], ![1, 3 / 4]]

/-- **C112** (disagreement with the message of the assertion, "could reconstruct full volume from grid") Only the number of samples is checked: samples
that do not form a grid are accepted, and their rows are returned at other points. -/
theorem C112_not_grid_defect (R : Rgi ℚ 2 1) (hR : Interpolates R) (hm : R.minPts ≤ 2) :
    (¬ ∃ A, IsGrid A exSkew) ∧ ![1, 0] ∉ exSkew ∧
    ∃ f, interpolate R id exSkew [![10], ![20], ![30], ![40]] none false none = .ok f ∧ f ![1, 0] = .ok ![30] := by
  refine ⟨?_, by decide +kernel, ?_⟩
  · rintro ⟨A, -, -, h⟩
    have h1 := (h ![1, 1 / 2]).1 (by simp [exSkew])
    have h2 := (h ![0, 0]).1 (by simp [exSkew])
    have h3 := (h ![1, 0]).2 (by
      intro i; fin_cases i
      · exact h1 0
      · exact h2 1)
    revert h3; decide +kernel
  · rw [interpolate_none R id (by simp [exSkew]) (by simp [exSkew])]
    unfold interpolateGrid
    have hs : gridShape (d := 2) (exSkew.zip [(![10] : Fin 1 → ℚ), ![20], ![30], ![40]]).length none = fun _ => 2 := by
      funext i
      exact defaultGrid_pow (d := 2) (by norm_num) 2
    dsimp only
    rw [hs, if_neg (by simp [exSkew]), if_neg (by norm_num)]
    simp only [Bool.false_eq_true, if_false]
    have hax : (reshapeGrid (fun _ => 2) (sortGrid id Prod.fst (exSkew.zip [(![10] : Fin 1 → ℚ), ![20], ![30], ![40]]))).axis = fun _ => [0, 1] := by
      funext i
      fin_cases i <;> decide +kernel
    rw [hax, make_ok (fun i => by simp) (fun i => by simpa using hm)]
    refine ⟨_, rfl, ?_⟩
    rw [if_pos (by
      intro i
      fin_cases i
      · exact ⟨⟨0, by simp, by simp⟩, 1, by simp, by simp⟩
      · exact ⟨⟨0, by simp, by simp⟩, 1, by simp, by simp⟩)]
    rw [hR _ _ ![1, 0] _ (fun i => by simp) (by intro i; fin_cases i <;> rfl)]
    congr 1
    decide +kernel

end TB
