import Verif.Props.Interpolate

/-!
# Property C113: `interpolate_unstructured`
-/

set_option linter.unusedSectionVars false

namespace TB
open Spec

variable {K : Type} [Field K] [LinearOrder K] [IsStrictOrderedRing K] {d B : ℕ}

/-- The square of the distance. -/
def Spec.dist2 (a b : Vec K d) : K := ∑ i, (a i - b i) ^ 2

/-- Contract of `KDTree(pts).query(k, distance_upper_bound=r)`: the index of a nearest point if it is closer than `r`, otherwise none. -/
def Spec.Nearest (near : List (Vec K d) → K → Vec K d → Option ℕ) : Prop :=
  ∀ pts r k, (∀ i, near pts r k = some i → ∃ p, pts[i]? = some p ∧ dist2 p k < r ^ 2 ∧ ∀ q ∈ pts, dist2 p k ≤ dist2 q k) ∧
    (near pts r k = none → ∀ q ∈ pts, r ^ 2 ≤ dist2 q k)

theorem dist2_nonneg (a b : Vec K d) : 0 ≤ dist2 a b := Finset.sum_nonneg fun _ _ => sq_nonneg _

theorem dist2_eq_zero {a b : Vec K d} : dist2 a b = 0 ↔ a = b := by
  unfold dist2
  rw [Finset.sum_eq_zero_iff_of_nonneg fun _ _ => sq_nonneg _]
  constructor
  · intro h; funext i
    exact sub_eq_zero.1 (pow_eq_zero_iff (two_ne_zero)|>.1 (h i (Finset.mem_univ i)))
  · rintro rfl; simp

theorem unstructured_none [FloorRing K] (near : List (Vec K d) → K → Vec K d → Option ℕ) (κ : K → K) (ks : List (Vec K d)) (bands : List (Fin B → K))
    (r : K) (hne : ks ≠ []) (hb : bands ≠ []) :
    interpolateUnstructured near κ ks bands none r = .ok fun k =>
      match (bands.map some ++ [none])[(near ks r k).getD ks.length]? with
      | some r => .ok r
      | none => .error .indexError := by
  unfold interpolateUnstructured
  have h0 : ¬ ks.isEmpty = true := by simpa using hne
  simp only [h0, if_false, Bool.false_eq_true, Option.isSome_none, hb]
  have hz : ks.zipIdx.map Prod.fst = ks := by simp
  rw [hz]
  congr 1

/-- **C113** Without symmetry, the returned function gives the row of a nearest sample if that sample is closer than `max_error`, and `nan` (`none`) if no sample
is; it never raises. -/
theorem C113_nearest [FloorRing K] (near : List (Vec K d) → K → Vec K d → Option ℕ) (hn : Nearest near) (κ : K → K) (ks : List (Vec K d))
    (bands : List (Fin B → K)) (r : K) (hne : ks ≠ []) (hlen : ks.length = bands.length) :
    ∃ f, interpolateUnstructured near κ ks bands none r = .ok f ∧ ∀ k,
      ((∃ q ∈ ks, dist2 q k < r ^ 2) →
        ∃ (j : ℕ) (p : Vec K d) (v : Fin B → K), ks[j]? = some p ∧ bands[j]? = some v ∧ (∀ q ∈ ks, dist2 p k ≤ dist2 q k) ∧ f k = .ok (some v)) ∧
      ((∀ q ∈ ks, r ^ 2 ≤ dist2 q k) → f k = .ok none) := by
  have hb : bands ≠ [] := by
    intro h; rw [h] at hlen; simp at hlen; exact hne hlen
  refine ⟨_, unstructured_none near κ ks bands r hne hb, fun k => ⟨?_, ?_⟩⟩
  · rintro ⟨q, hq, hlt⟩
    cases hk : near ks r k with
    | none => exact absurd hlt ((hn ks r k).2 hk q hq).not_gt
    | some j =>
      obtain ⟨p, hp, -, hmin⟩ := (hn ks r k).1 j hk
      have hj := (List.getElem?_eq_some_iff.1 hp).1
      refine ⟨j, p, bands[j]'(by omega), hp, List.getElem?_eq_getElem _, hmin, ?_⟩
      rw [Option.getD_some, List.getElem?_append_left (by simp; omega), List.getElem?_map, List.getElem?_eq_getElem (by omega)]
      rfl
  · intro h
    cases hk : near ks r k with
    | none =>
      rw [Option.getD_none, List.getElem?_append_right (by simp; omega)]
      simp [hlen]
    | some j =>
      obtain ⟨p, hp, hlt, -⟩ := (hn ks r k).1 j hk
      exact absurd hlt (h p (List.mem_of_getElem? hp)).not_gt

/-- **C113** At the samples themselves, if they are different and `max_error` is positive, the function returns their rows. -/
theorem C113_samples [FloorRing K] (near : List (Vec K d) → K → Vec K d → Option ℕ) (hn : Nearest near) (κ : K → K) (ks : List (Vec K d))
    (bands : List (Fin B → K)) (r : K) (hr : 0 < r) (hne : ks ≠ []) (hlen : ks.length = bands.length) (hnd : ks.Nodup) :
    ∃ f, interpolateUnstructured near κ ks bands none r = .ok f ∧
      ∀ (j : ℕ) k v, ks[j]? = some k → bands[j]? = some v → f k = .ok (some v) := by
  obtain ⟨f, h1, h2⟩ := C113_nearest near hn κ ks bands r hne hlen
  refine ⟨f, h1, fun j k v hk hv => ?_⟩
  have h0 : dist2 k k = 0 := dist2_eq_zero.2 rfl
  obtain ⟨i, p, w, hp, hw, hmin, hf⟩ := (h2 k).1 ⟨k, List.mem_of_getElem? hk, by rw [h0]; positivity⟩
  have hpk : p = k := dist2_eq_zero.1 (le_antisymm (by rw [← h0]; exact hmin k (List.mem_of_getElem? hk)) (dist2_nonneg _ _))
  subst hpk
  have hij : i = j := by
    obtain ⟨hi, hie⟩ := List.getElem?_eq_some_iff.1 hp
    obtain ⟨hj, hje⟩ := List.getElem?_eq_some_iff.1 hk
    exact (List.Nodup.getElem_inj_iff hnd).1 (hie.trans hje.symm)
  subst hij
  rw [hf, Option.some.inj (hw.symm.trans hv)]

/-- **C113** With a symmetry, if equivalent samples have equal rows, the function has at every image of a sample the row of the sample. -/
theorem C113_symmetric [FloorRing K] (near : List (Vec K d) → K → Vec K d → Option ℕ) (hn : Nearest near) (κ : K → K) (ks : List (Vec K d))
    (bands : List (Fin B → K)) (r : K) (hr : 0 < r) (hne : ks ≠ []) (hlen : ks.length ≤ bands.length) (σ : Sym K d) (hg : IsMatGroup σ.ops)
    (hcons : ∀ (i j : ℕ) (a b : Vec K d), ks[i]? = some a → ks[j]? = some b → (∃ s ∈ σ.ops, ∃ t ∈ σ.ops, s.mulVec a = t.mulVec b) → bands[i]? = bands[j]?) :
    ∃ f, interpolateUnstructured near κ ks bands (some σ) r = .ok f ∧
      ∀ (j : ℕ) k v, ks[j]? = some k → bands[j]? = some v → ∀ s ∈ σ.ops, f (s.mulVec k) = .ok (some v) := by
  obtain ⟨l, hl⟩ := realize_ok (σ := σ) (κ := κ) (unitCell := false) hne
  obtain ⟨h1, h2, -⟩ := realize_spec hg.one_mem hl
  simp only [Bool.false_eq_true, if_false] at h1 h2
  have hrow : ∀ p ∈ l, ∃ v, bands[p.2]? = some v := by
    intro p hp
    obtain ⟨k, hk, -⟩ := h1 p.1 p.2 hp
    have := (List.getElem?_eq_some_iff.1 hk).1
    exact ⟨bands[p.2]'(by omega), List.getElem?_eq_getElem _⟩
  obtain ⟨rows, hrows⟩ : ∃ rows, (l.mapM fun p => bands[p.2]?) = some rows := by
    cases hm : l.mapM fun p => bands[p.2]? with
    | some rows => exact ⟨rows, rfl⟩
    | none =>
      obtain ⟨p, hp, he⟩ := mapM_option_none.1 hm
      obtain ⟨v, hv⟩ := hrow p hp
      rw [hv] at he; cases he
  have hmap := mapM_option_some hrows
  have hlen' : rows.length = l.length := by simpa using congrArg List.length hmap
  have hlne : l ≠ [] := by
    obtain ⟨k, hk⟩ := List.exists_mem_of_ne_nil ks hne
    obtain ⟨i, hi⟩ := List.mem_iff_getElem?.1 hk
    obtain ⟨j, hj⟩ := h2 i k hi 1 hg.one_mem
    exact List.ne_nil_of_mem hj
  have hrne : rows ≠ [] := by
    intro h; rw [h] at hlen'; simp at hlen'; exact hlne (List.eq_nil_of_length_eq_zero hlen'.symm)
  refine ⟨fun k => match (rows.map some ++ [none])[(near (l.map Prod.fst) r k).getD (l.map Prod.fst).length]? with
    | some r => .ok r
    | none => .error .indexError, ?_, ?_⟩
  · unfold interpolateUnstructured
    simp only [hl, Option.isSome_some, if_true, hrows, hrne, if_false]
    congr 1
  · intro j k v hk hv s hs
    obtain ⟨j', hj'⟩ := h2 j k hk s hs
    have hmem : s.mulVec k ∈ l.map Prod.fst := List.mem_map.2 ⟨_, hj', rfl⟩
    have h0 : dist2 (s.mulVec k) (s.mulVec k) = 0 := dist2_eq_zero.2 rfl
    cases hq : near (l.map Prod.fst) r (s.mulVec k) with
    | none =>
      have := (hn _ r _).2 hq _ hmem
      rw [h0] at this
      exact absurd this (not_le.2 (by positivity))
    | some i =>
      obtain ⟨p, hp, -, hmin⟩ := (hn _ r _).1 i hq
      have hpk : p = s.mulVec k := dist2_eq_zero.1 (le_antisymm (by rw [← h0]; exact hmin _ hmem) (dist2_nonneg _ _))
      rw [List.getElem?_map] at hp
      cases hli : l[i]? with
      | none => rw [hli] at hp; simp at hp
      | some q =>
        rw [hli] at hp
        simp only [Option.map_some, Option.some.injEq] at hp
        obtain ⟨a, ha, t, ht, he⟩ := h1 q.1 q.2 (List.mem_of_getElem? hli)
        have hv' : bands[q.2]? = some v := by
          rw [hcons q.2 j a k ha hk ⟨t, ht, s, hs, by rw [← he, hp, hpk]⟩, hv]
        have hi := (List.getElem?_eq_some_iff.1 hli).1
        have hr1 : (rows.map some)[i]? = some (some v) := by
          rw [hmap, List.getElem?_map, hli, Option.map_some, hv']
        simp only [hq, Option.getD_some]
        rw [List.getElem?_append_left (by simp; omega), hr1]

/-- **C113** No samples or no rows raise `IndexError`.  (disagreement with the comment "The interpolator will return NaN if the point was not in the data")
The numbers of samples and rows are not compared: with more rows than samples a point far from all samples gets the first surplus row instead of `nan`. -/
theorem C113_length_defect [FloorRing K] (near : List (Vec K d) → K → Vec K d → Option ℕ) (hn : Nearest near) (κ : K → K) (ks : List (Vec K d))
    (bands : List (Fin B → K)) (r : K) :
    (ks = [] ∨ bands = [] → interpolateUnstructured near κ ks bands none r = .error .indexError) ∧
    (ks ≠ [] → ∀ v, bands[ks.length]? = some v → ∃ f, interpolateUnstructured near κ ks bands none r = .ok f ∧
      ∀ k, (∀ q ∈ ks, r ^ 2 ≤ dist2 q k) → f k = .ok (some v)) := by
  refine ⟨?_, ?_⟩
  · intro h
    unfold interpolateUnstructured
    rcases eq_or_ne ks [] with rfl | hne
    · rfl
    · have hb := h.resolve_left hne
      have h0 : ¬ ks.isEmpty = true := by simpa using hne
      simp [h0, hb]
  · intro hne v hv
    have hlt := (List.getElem?_eq_some_iff.1 hv).1
    have hb : bands ≠ [] := by rintro rfl; simp at hlt
    refine ⟨_, unstructured_none near κ ks bands r hne hb, fun k hk => ?_⟩
    cases hq : near ks r k with
    | some j =>
      obtain ⟨p, hp, hlt, -⟩ := (hn ks r k).1 j hq
      exact absurd hlt (hk p (List.mem_of_getElem? hp)).not_gt
    | none =>
      simp only [Option.getD_none]
      rw [List.getElem?_append_left (by simpa using hlt), List.getElem?_map, hv]
      rfl

/-! ## examples -/

/-- The first of the nearest points. -/
def exNear (pts : List (Vec ℚ d)) (r : ℚ) (k : Vec ℚ d) : Option ℕ :=
  (pts.findIdx? fun p => pts.all fun q => decide (dist2 p k ≤ dist2 q k)).bind fun i =>
    (pts[i]?).bind fun p => if dist2 p k < r ^ 2 then some i else none

theorem exNear_ok : Nearest (exNear (d := d)) := by
  intro pts r k
  have key : ∀ i, (pts.findIdx? fun p => pts.all fun q => decide (dist2 p k ≤ dist2 q k)) = some i →
      ∃ p, pts[i]? = some p ∧ ∀ q ∈ pts, dist2 p k ≤ dist2 q k := by
    intro i hi
    rw [List.findIdx?_eq_some_iff_getElem] at hi
    obtain ⟨h1, h2, -⟩ := hi
    exact ⟨pts[i], List.getElem?_eq_getElem h1, by simpa using h2⟩
  refine ⟨?_, ?_⟩
  · intro i hi
    rw [exNear, Option.bind_eq_some_iff] at hi
    obtain ⟨j, hj, hi⟩ := hi
    obtain ⟨p, hp, hmin⟩ := key j hj
    rw [hp, Option.bind_some] at hi
    by_cases hlt : dist2 p k < r ^ 2
    · rw [if_pos hlt] at hi
      obtain rfl := Option.some.inj hi
      exact ⟨p, hp, hlt, hmin⟩
    · rw [if_neg hlt] at hi; cases hi
  · intro hnone q hq
    have hne : pts ≠ [] := List.ne_nil_of_mem hq
    cases hf : pts.findIdx? fun p => pts.all fun q => decide (dist2 p k ≤ dist2 q k) with
    | none =>
      rw [List.findIdx?_eq_none_iff] at hf
      exfalso
      have hex : ∃ p ∈ pts, ∀ q ∈ pts, dist2 p k ≤ dist2 q k := by
        obtain ⟨p, hp, hmin⟩ := pts.toFinset.exists_min_image (fun p => dist2 p k) (by
          obtain ⟨p, hp⟩ := List.exists_mem_of_ne_nil pts hne
          exact ⟨p, List.mem_toFinset.2 hp⟩)
        exact ⟨p, List.mem_toFinset.1 hp, fun q hq => hmin q (List.mem_toFinset.2 hq)⟩
      obtain ⟨p, hp, hmin⟩ := hex
      have := hf p hp
      rw [List.all_eq_false] at this
      obtain ⟨q, hq, h⟩ := this
      exact h (by simpa using hmin q hq)
    | some j =>
      obtain ⟨p, hp, hmin⟩ := key j hf
      rw [exNear, hf, Option.bind_some, hp, Option.bind_some] at hnone
      by_cases hlt : dist2 p k < r ^ 2
      · rw [if_pos hlt] at hnone; cases hnone
      · exact le_trans (not_lt.1 hlt) (hmin q hq)

example : ∃ f, interpolateUnstructured exNear id [![0], ![1 / 2]] [![10], ![20]] none (1 / 1000 : ℚ) = .ok f ∧ f ![1 / 2] = .ok (some ![20]) := by
  obtain ⟨f, h1, h2⟩ := C113_samples (B := 1) exNear exNear_ok id [![0], ![1 / 2]] [![10], ![20]] (1 / 1000 : ℚ) (by norm_num) (by simp) (by simp)
    (by decide +kernel)
  exact ⟨f, h1, h2 1 _ _ rfl rfl⟩

example : ∃ f, interpolateUnstructured exNear id [![0], ![1 / 2]] [![10], ![20]] none (1 / 1000 : ℚ) = .ok f ∧ f ![1 / 4] = .ok none := by
  obtain ⟨f, h1, h2⟩ := C113_nearest (B := 1) exNear exNear_ok id [![0], ![1 / 2]] [![10], ![20]] (1 / 1000 : ℚ) (by simp) (by simp)
  exact ⟨f, h1, (h2 _).2 (by simp [dist2]; norm_num)⟩

example : ∃ f, interpolateUnstructured exNear id [![1 / 4]] [![3]] (some exMirrorLine) (1 / 1000 : ℚ) = .ok f ∧
    f ((-1 : Mat ℚ 1).mulVec ![1 / 4]) = .ok (some ![3]) := by
  obtain ⟨f, h1, h2⟩ := C113_symmetric (B := 1) exNear exNear_ok id [![1 / 4]] [![3]] (1 / 1000 : ℚ) (by norm_num) (by simp) (by simp) exMirrorLine
    exMirrorLine_group (by
      intro i j a b hi hj _
      have h1 := (List.getElem?_eq_some_iff.1 hi).1
      have h2 := (List.getElem?_eq_some_iff.1 hj).1
      simp at h1 h2
      rw [h1, h2])
  exact ⟨f, h1, h2 0 _ _ rfl rfl _ (by simp [exMirrorLine_ops])⟩

/-- One row too many is returned at a point without sample. -/
example : ∃ f, interpolateUnstructured exNear id [![0]] [![10], ![20]] none (1 / 1000 : ℚ) = .ok f ∧ f ![1 / 4] = .ok (some ![20]) := by
  obtain ⟨f, h1, h2⟩ := (C113_length_defect (B := 1) exNear exNear_ok id [![0]] [![10], ![20]] (1 / 1000 : ℚ)).2 (by simp) ![20] rfl
  exact ⟨f, h1, h2 _ (by simp [dist2]; norm_num)⟩

end TB
