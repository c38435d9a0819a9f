import Verif.Model.Plots
import Mathlib.Data.List.Sort
import Mathlib.Data.List.Nodup
import Mathlib.Data.List.MinMax
import Mathlib.Tactic.Linarith
import Mathlib.Tactic.Ring
import Mathlib.Tactic.Positivity
import Mathlib.Tactic.NormNum

/-!
# C144: labels of `KPath.plot` and colours of `KPath.plot_comparison`
-/

namespace TB.PropsKPlot
open TB TB.Plots

/-! ## Reading a label -/

/-- The bands that a piece of a label names. -/
def Item.bands : Item → List ℕ
  | .one i => [i]
  | .span a b => (List.range (b + 1 - a)).map fun k => a + k

/-- The bands that a label names. -/
def named (l : List Item) : List ℕ := l.flatMap Item.bands

/-- Bands of a range. -/
def expand (r : List (ℕ × ℕ)) : List ℕ := r.flatMap fun x => (List.range (x.2 + 1 - x.1)).map fun k => x.1 + k

theorem expand_append (r s : List (ℕ × ℕ)) : expand (r ++ s) = expand r ++ expand s := by simp [expand]

theorem named_label (rs : List (ℕ × ℕ)) : named (label rs) = expand rs := by
  induction rs with
  | nil => rfl
  | cons r rs ih =>
    have h : label (r :: rs) = label [r] ++ label rs := by simp [label]
    have h2 : expand (r :: rs) = expand [r] ++ expand rs := expand_append [r] rs
    rw [h, h2, ← ih]
    have : named (label [r] ++ label rs) = named (label [r]) ++ named (label rs) := by simp [named]
    rw [this]
    congr 1
    obtain ⟨a, b⟩ := r
    by_cases h1 : a = b
    · subst h1; simp [label, named, expand, Item.bands]
    · by_cases h3 : a + 1 = b
      · subst h3
        have : a + 1 + 1 - a = 2 := by omega
        simp [label, named, expand, Item.bands, this, List.range_succ]
      · simp [label, named, expand, Item.bands, h1, h3]

/-- Ranges in order with a gap between any two. -/
def Apart (r : List (ℕ × ℕ)) : Prop := (∀ x ∈ r, x.1 ≤ x.2) ∧ r.Pairwise fun x y => x.2 + 1 < y.1

theorem fold_ranges (l : List ℕ) : ∀ (p : List (ℕ × ℕ)) (a b : ℕ), Apart (p ++ [(a, b)]) → (b :: l).Pairwise (· < ·) →
    expand (l.foldl rangeStep (p ++ [(a, b)])) = expand (p ++ [(a, b)]) ++ l ∧ Apart (l.foldl rangeStep (p ++ [(a, b)])) := by
  induction l with
  | nil => intro p a b h _; simpa using h
  | cons i l ih =>
    intro p a b h hl
    have hbi : b < i := (List.pairwise_cons.1 hl).1 i (by simp)
    have hl2 : (i :: l).Pairwise (· < ·) := (List.pairwise_cons.1 hl).2
    have hab : a ≤ b := h.1 (a, b) (by simp)
    obtain ⟨hA, hB⟩ := h
    rw [List.pairwise_append] at hB
    obtain ⟨hp, -, hpa⟩ := hB
    have hpa' : ∀ x ∈ p, x.2 + 1 < a := fun x hx => hpa x hx (a, b) (by simp)
    have hA' : ∀ x ∈ p, x.1 ≤ x.2 := fun x hx => hA x (by simp [hx])
    simp only [List.foldl_cons]
    by_cases hi : b + 1 = i
    · have e : rangeStep (p ++ [(a, b)]) i = p ++ [(a, b + 1)] := by simp [rangeStep, hi]
      rw [e]
      have hap : Apart (p ++ [(a, b + 1)]) := by
        refine ⟨?_, ?_⟩
        · intro x hx
          rcases List.mem_append.1 hx with hx | hx
          · exact hA' x hx
          · simp at hx; subst hx; simp; omega
        · rw [List.pairwise_append]
          refine ⟨hp, by simp, ?_⟩
          intro x hx y hy
          simp at hy; subst hy; exact hpa' x hx
      obtain ⟨h1, h2⟩ := ih p a (b + 1) hap (by rw [hi]; exact hl2)
      refine ⟨?_, h2⟩
      rw [h1, expand_append, expand_append, List.append_assoc, List.append_assoc]
      congr 1
      have : b + 1 + 1 - a = (b + 1 - a) + 1 := by omega
      simp only [expand, List.flatMap_cons, List.flatMap_nil, List.append_nil, this, List.range_succ, List.map_append, List.map_cons, List.map_nil,
        List.append_assoc, List.cons_append, List.nil_append]
      have h3 : a + (b + 1 - a) = i := by omega
      rw [h3]
    · have e : rangeStep (p ++ [(a, b)]) i = (p ++ [(a, b)]) ++ [(i, i)] := by simp [rangeStep, hi]
      rw [e]
      have hap : Apart ((p ++ [(a, b)]) ++ [(i, i)]) := by
        refine ⟨?_, ?_⟩
        · intro x hx
          rcases List.mem_append.1 hx with hx | hx
          · exact hA x hx
          · simp at hx; subst hx; simp
        · rw [List.pairwise_append]
          refine ⟨?_, by simp, ?_⟩
          · rw [List.pairwise_append]; exact ⟨hp, by simp, hpa⟩
          · intro x hx y hy
            simp at hy; subst hy
            rcases List.mem_append.1 hx with hx | hx
            · have := hpa' x hx; simp; omega
            · simp at hx; subst hx; simp; omega
      obtain ⟨h1, h2⟩ := ih (p ++ [(a, b)]) i i hap hl2
      refine ⟨?_, h2⟩
      rw [h1, expand_append _ [(i, i)], List.append_assoc]
      simp [expand]

/-- **C144** A label names the bands of its tick, each once and in order; `a-b` stands for three or more bands, and neighbouring bands are never torn
apart: the ranges are as long as possible.  There is no label without bands. -/
theorem C144_label (bands : List ℕ) (h : bands.Pairwise (· < ·)) :
    (bands = [] → ranges bands = .error .indexError) ∧
    (bands ≠ [] → ∃ r, ranges bands = .ok r ∧ named (label r) = bands ∧ (∀ a b, Item.span a b ∈ label r → a + 2 ≤ b) ∧
      r.Pairwise fun x y => x.2 + 1 < y.1) := by
  refine ⟨fun e => by rw [e]; rfl, ?_⟩
  intro hne
  match bands, hne, h with
  | b :: l, _, h =>
    have h0 : Apart ([] ++ [(b, b)]) := ⟨by simp, by simp⟩
    obtain ⟨h1, h2⟩ := fold_ranges l [] b b h0 h
    refine ⟨_, rfl, ?_, ?_, h2.2⟩
    · rw [named_label]; simpa [expand] using h1
    · intro x y hxy
      obtain ⟨q, hq, hm⟩ := List.mem_flatMap.1 hxy
      have hle := h2.1 q (by simpa using hq)
      by_cases e1 : q.1 = q.2
      · simp [e1] at hm
      · by_cases e2 : q.1 + 1 = q.2
        · rw [if_neg e1, if_pos e2] at hm; simp at hm
        · rw [if_neg e1, if_neg e2] at hm; simp at hm; omega

example : ([2, 3, 4, 7, 8, 11] : List ℕ).Pairwise (· < ·) ∧ ranges [2, 3, 4, 7, 8, 11] = .ok [(2, 4), (7, 8), (11, 11)] := ⟨by decide, rfl⟩

/-! ## All labels -/

theorem fold_groups (l : List ℕ) : ∀ (s : ℕ) (y : List (List ℕ)) (j : ℕ),
    ((l.zipIdx s).foldl (fun y x => y.modify x.1 fun l => l ++ [x.2]) y)[j]? =
      y[j]?.map fun g => g ++ ((l.zipIdx s).filter fun x => x.1 = j).map Prod.snd := by
  induction l with
  | nil => intro s y j; simp
  | cons a l ih =>
    intro s y j
    rw [List.zipIdx_cons, List.foldl_cons, ih]
    by_cases h : a = j
    · subst h
      simp [List.getElem?_modify_eq, Option.map_map, Function.comp_def]
    · rw [List.getElem?_modify]
      simp [h]

theorem mem_ticks (edge : List ℝ) (x : ℝ) : x ∈ ticks edge ↔ x ∈ edge := by
  simp [ticks]

theorem ticks_sorted (edge : List ℝ) : (ticks edge).Pairwise (· < ·) := by
  classical
  have h1 : (ticks edge).Pairwise (· ≤ ·) := by
    have := List.pairwise_mergeSort (le := fun a b : ℝ => decide (a ≤ b)) (fun a b c => by simpa using le_trans) (fun a b => by simpa using le_total a b) edge.dedup
    refine List.Pairwise.imp ?_ (by simpa [ticks] using this)
    intro a b h; simpa using h
  have h2 : (ticks edge).Nodup := by
    have hp := List.mergeSort_perm edge.dedup (fun a b : ℝ => decide (a ≤ b))
    have := hp.nodup_iff.2 (List.nodup_dedup edge)
    convert this using 1
    unfold ticks
    congr
  exact h1.imp₂ (fun a b h h' => lt_of_le_of_ne h h') h2

/-- **C144** For bands that are rounded to positions by any function `rnd`, the ticks are the different positions in ascending order, and the label at a
tick names exactly the bands that are rounded to it, in ascending order; so every band is named at one tick and never twice. -/
theorem C144_labels (rnd : ℝ → ℝ) (bands : List ℝ) :
    ∃ L, labels rnd bands = .ok L ∧ (L.map Prod.fst).Pairwise (· < ·) ∧ (∀ x : ℝ, x ∈ L.map Prod.fst ↔ ∃ E ∈ bands, rnd E = x) ∧
      ∀ x ∈ L, (named x.2).Pairwise (· < ·) ∧ ∀ i, i ∈ named x.2 ↔ ∃ E, bands[i]? = some E ∧ rnd E = x.1 := by
  classical
  set edge := bands.map rnd with hedge
  have hlen : (groups edge).length = (ticks edge).length := by
    have : ∀ (l : List (ℕ × ℕ)) (y : List (List ℕ)), (l.foldl (fun y x => y.modify x.1 fun l => l ++ [x.2]) y).length = y.length := by
      intro l
      induction l with
      | nil => intro y; rfl
      | cons a l ih => intro y; rw [List.foldl_cons, ih]; simp
    simp [groups, this]
  -- every group
  have hg : ∀ (j : ℕ) (g : List ℕ), (groups edge)[j]? = some g → ∀ t, (ticks edge)[j]? = some t →
      g.Pairwise (· < ·) ∧ ∀ i, i ∈ g ↔ edge[i]? = some t := by
    intro j g hgj t ht
    have hj : j < (ticks edge).length := (List.getElem?_eq_some_iff.1 ht).1
    have e := fold_groups (inverse edge) 0 (List.replicate (ticks edge).length []) j
    change (groups edge)[j]? = _ at e
    rw [hgj, List.getElem?_replicate, if_pos hj] at e
    simp only [Option.map_some, List.nil_append, Option.some.injEq] at e
    subst e
    refine ⟨?_, ?_⟩
    · have h1 : ((inverse edge).zipIdx.map Prod.snd).Pairwise (· < ·) := by
        rw [List.zipIdx_map_snd]; simpa using List.pairwise_lt_range' (s := 0) (n := (inverse edge).length)
      exact h1.sublist (List.filter_sublist.map _)
    · intro i
      have hmem : ∀ a, (a, i) ∈ (inverse edge).zipIdx ↔ (inverse edge)[i]? = some a := by
        intro a; rw [List.mk_mem_zipIdx_iff_getElem?]
      constructor
      · intro h
        obtain ⟨⟨a, i'⟩, h1, h2⟩ := List.mem_map.1 h
        simp only at h2; subst h2
        obtain ⟨h3, h4⟩ := List.mem_filter.1 h1
        simp only [decide_eq_true_eq] at h4
        subst h4
        rw [hmem] at h3
        simp only [inverse, List.getElem?_map, Option.map_eq_some_iff] at h3
        obtain ⟨x, hx, hxa⟩ := h3
        have hxm : x ∈ ticks edge := (mem_ticks edge x).2 (List.mem_of_getElem? hx)
        have h5 : (ticks edge)[(ticks edge).idxOf x]? = some x := by
          rw [List.getElem?_eq_getElem (List.idxOf_lt_length_of_mem hxm), List.getElem_idxOf]
        have hxa' : (ticks edge).idxOf x = a := by convert hxa
        rw [hxa', ht] at h5
        rw [hx]; exact h5.symm
      · intro h
        refine List.mem_map.2 ⟨(j, i), List.mem_filter.2 ⟨?_, by simp⟩, rfl⟩
        rw [hmem]
        simp only [inverse, List.getElem?_map, h, Option.map_some, Option.some.injEq]
        have hn : (ticks edge).Nodup := (ticks_sorted edge).imp ne_of_lt
        obtain ⟨_, h6⟩ := List.getElem?_eq_some_iff.1 ht
        rw [← h6]
        convert hn.idxOf_getElem j hj
  have key : ∀ Z : List (ℝ × List ℕ), (∀ x ∈ Z, x.2 ≠ [] ∧ x.2.Pairwise (· < ·)) →
      ∃ L, (Z.mapM fun x => (ranges x.2).map fun r => (x.1, label r)) = .ok L ∧ L.map Prod.fst = Z.map Prod.fst ∧
        ∀ x ∈ L, ∃ z ∈ Z, x.1 = z.1 ∧ named x.2 = z.2 := by
    intro Z
    induction Z with
    | nil => intro _; exact ⟨[], rfl, rfl, by simp⟩
    | cons z Z ih =>
      intro hZ
      obtain ⟨L, h1, h2, h3⟩ := ih fun x hx => hZ x (by simp [hx])
      obtain ⟨hz1, hz2⟩ := hZ z (by simp)
      obtain ⟨r, hr, hn, -⟩ := (C144_label z.2 hz2).2 hz1
      refine ⟨(z.1, label r) :: L, ?_, by simp [h2], ?_⟩
      · rw [List.mapM_cons, h1, hr]; rfl
      · intro x hx
        rcases List.mem_cons.1 hx with hx | hx
        · subst hx; exact ⟨z, by simp, rfl, hn⟩
        · obtain ⟨z', hz', h4⟩ := h3 x hx
          exact ⟨z', by simp [hz'], h4⟩
  have hzip : ∀ x ∈ (ticks edge).zip (groups edge), ∃ j : ℕ, (ticks edge)[j]? = some x.1 ∧ (groups edge)[j]? = some x.2 := by
    intro x hx
    obtain ⟨j, hj⟩ := List.mem_iff_getElem?.1 hx
    exact ⟨j, (List.getElem?_zip_eq_some.1 hj).1, (List.getElem?_zip_eq_some.1 hj).2⟩
  obtain ⟨L, h1, h2, h3⟩ := key ((ticks edge).zip (groups edge)) (by
    intro x hx
    obtain ⟨j, hj1, hj2⟩ := hzip x hx
    obtain ⟨ha, hb⟩ := hg j x.2 hj2 x.1 hj1
    refine ⟨?_, ha⟩
    intro h0
    have hm : x.1 ∈ edge := (mem_ticks edge x.1).1 (List.mem_of_getElem? hj1)
    obtain ⟨i, hi⟩ := List.mem_iff_getElem?.1 hm
    have := (hb i).2 hi
    rw [h0] at this
    simp at this)
  have hfst : L.map Prod.fst = ticks edge := by
    rw [h2, List.map_fst_zip (by omega)]
  refine ⟨L, h1, by rw [hfst]; exact ticks_sorted edge, ?_, ?_⟩
  · intro x
    rw [hfst, mem_ticks, hedge, List.mem_map]
  · intro x hx
    obtain ⟨z, hz, hz1, hz2⟩ := h3 x hx
    obtain ⟨j, hj1, hj2⟩ := hzip z hz
    obtain ⟨ha, hb⟩ := hg j z.2 hj2 z.1 hj1
    rw [hz2, hz1]
    refine ⟨ha, ?_⟩
    intro i
    rw [hb i, hedge, List.getElem?_map, Option.map_eq_some_iff]

/-! ## `plot_comparison` -/

theorem argmin_spec (l : List ℝ) (h : l ≠ []) : ∃ i, argmin l = .ok i ∧ ∃ hi : i < l.length, (∀ z ∈ l, l[i] ≤ z) ∧
    ∀ k (hk : k < i), ∃ z ∈ l, z < l[k]'(by omega) := by
  classical
  match l, h with
  | x :: t, _ =>
    obtain ⟨m, hm, hmin⟩ : ∃ m ∈ x :: t, ∀ z ∈ x :: t, m ≤ z := by
      obtain ⟨m, hm, hz⟩ := (x :: t).toFinset.exists_min_image id ⟨x, by simp⟩
      exact ⟨m, by simpa using hm, fun z hz' => hz z (by simpa using hz')⟩
    have hs : ((x :: t).findIdx? fun y => decide (∀ z ∈ x :: t, y ≤ z)).isSome := by
      rw [List.findIdx?_isSome, List.any_eq_true]
      exact ⟨m, hm, by simpa using hmin⟩
    obtain ⟨i, hi⟩ := Option.isSome_iff_exists.1 hs
    have hi' := List.findIdx?_eq_some_iff_getElem.1 hi
    obtain ⟨hlt, h1, h2⟩ := hi'
    refine ⟨i, ?_, hlt, by simpa using h1, ?_⟩
    · have : argmin (x :: t) = .ok (((x :: t).findIdx? fun y => decide (∀ z ∈ x :: t, y ≤ z)).getD 0) := by
        unfold argmin; congr
      rw [this, hi]; rfl
    · intro k hk
      have := h2 k hk
      simp only [decide_eq_true_eq, not_forall, not_le] at this
      obtain ⟨z, hz, hzk⟩ := this
      exact ⟨z, hz, hzk⟩

theorem shifts_length (nm nr : ℕ) : (shifts nm nr).length = nm + nr - 1 := by simp [shifts]

/-- **C144** `plot_comparison` shifts by the first shift of `1 - nr … nm - 1` for which the bands that lie on each other differ least. -/
theorem C144_offset (mod ref : List ℝ) (h : 2 ≤ mod.length + ref.length) :
    ∃ o : ℤ, bandOffset mod ref = .ok o ∧ 1 - (ref.length : ℤ) ≤ o ∧ o < mod.length ∧
      (∀ i : ℤ, 1 - (ref.length : ℤ) ≤ i → i < mod.length → shiftError mod ref o ≤ shiftError mod ref i) ∧
      ∀ i : ℤ, 1 - (ref.length : ℤ) ≤ i → i < o → shiftError mod ref o < shiftError mod ref i := by
  have hl : ((shifts mod.length ref.length).map (shiftError mod ref)).length = mod.length + ref.length - 1 := by simp [shifts]
  have hget : ∀ k (hk : k < ((shifts mod.length ref.length).map (shiftError mod ref)).length),
      ((shifts mod.length ref.length).map (shiftError mod ref))[k] = shiftError mod ref ((k : ℤ) + (1 - ref.length)) := by
    intro k hk; simp [shifts]
  have hall : ∀ i : ℤ, 1 - (ref.length : ℤ) ≤ i → i < mod.length → shiftError mod ref i ∈ (shifts mod.length ref.length).map (shiftError mod ref) := by
    intro i h1 h2
    refine List.mem_map.2 ⟨i, List.mem_map.2 ⟨(i - (1 - ref.length)).toNat, ?_, ?_⟩, rfl⟩
    · rw [List.mem_range]; omega
    · omega
  obtain ⟨i, h1, hi, h2, h3⟩ := argmin_spec ((shifts mod.length ref.length).map (shiftError mod ref)) (by
    intro h0; rw [h0] at hl; simp at hl; omega)
  rw [hget i hi] at h2
  have hlt : i < mod.length + ref.length - 1 := by rw [← hl]; exact hi
  refine ⟨(i : ℤ) + (1 - ref.length), ?_, by omega, by omega, fun j hj1 hj2 => h2 _ (hall j hj1 hj2), ?_⟩
  · unfold bandOffset; rw [h1]; rfl
  · intro j hj1 hj2
    have hk : (j - (1 - ref.length)).toNat < i := by omega
    obtain ⟨z, hz, hzk⟩ := h3 _ hk
    rw [hget] at hzk
    have e : (((j - (1 - ref.length)).toNat : ℕ) : ℤ) + (1 - ref.length) = j := by omega
    rw [e] at hzk
    exact lt_of_le_of_lt (h2 z hz) hzk

example : bandOffset [] [] = .error .valueError ∧ bandOffset [1] [] = .error .valueError ∧ (2 : ℕ) ≤ [(1 : ℝ)].length + [(2 : ℝ)].length := by
  refine ⟨rfl, rfl, by simp⟩

/-- **C144** Band `j` of the first function and band `j'` of the second are drawn in the same colour of the cycle exactly if they lie on each other for
the shift. -/
theorem C144_colours (o : ℤ) (j j' : ℕ) : colour1 o j = colour2 o j' ↔ (j : ℤ) - j' = o := by
  unfold colour1 colour2 colour
  omega

theorem sum_sq_zero (l : List (ℝ × ℝ)) : (l.map fun x => (x.1 - x.2) ^ 2).sum = 0 ↔ ∀ x ∈ l, x.1 = x.2 := by
  induction l with
  | nil => simp
  | cons a l ih =>
    have h0 : 0 ≤ (l.map fun x => (x.1 - x.2) ^ 2).sum := List.sum_nonneg (by
      intro x hx; obtain ⟨y, -, rfl⟩ := List.mem_map.1 hx; positivity)
    simp only [List.map_cons, List.sum_cons, List.forall_mem_cons]
    rw [← ih]
    constructor
    · intro h
      have h1 : (a.1 - a.2) ^ 2 = 0 := by nlinarith [sq_nonneg (a.1 - a.2)]
      refine ⟨by have := pow_eq_zero_iff (two_ne_zero) |>.1 h1; linarith, by nlinarith⟩
    · rintro ⟨h1, h2⟩
      rw [h1, h2]; simp

theorem shiftError_zero (mod ref : List ℝ) (i : ℤ) :
    shiftError mod ref i = 0 ↔ ∀ k a b, mod[(max i 0).toNat + k]? = some a → ref[(max (-i) 0).toNat + k]? = some b → a = b := by
  unfold shiftError
  rw [Real.sqrt_eq_zero (List.sum_nonneg (by
      intro x hx; obtain ⟨y, -, rfl⟩ := List.mem_map.1 hx; positivity)), sum_sq_zero]
  constructor
  · intro h k a b ha hb
    refine h (a, b) (List.mem_iff_getElem?.2 ⟨k, ?_⟩)
    rw [List.getElem?_zip_eq_some, List.getElem?_drop, List.getElem?_drop]
    exact ⟨ha, hb⟩
  · rintro h ⟨a, b⟩ hx
    obtain ⟨k, hk⟩ := List.mem_iff_getElem?.1 hx
    rw [List.getElem?_zip_eq_some, List.getElem?_drop, List.getElem?_drop] at hk
    exact h k a b hk.1 hk.2

theorem shiftError_nonneg (mod ref : List ℝ) (i : ℤ) : 0 ≤ shiftError mod ref i := Real.sqrt_nonneg _

/-- **C144** If one function has a block of the bands of the other (at the first point of the path, where the bands are all different), the shift is the
right one: `s` bands are missing below.  So bands that belong together get the same colour. -/
theorem C144_block (all : List ℝ) (hn : all.Nodup) (s m : ℕ) (hm : 1 ≤ m) (hs : s + m ≤ all.length) :
    bandOffset ((all.drop s).take m) all = .ok (-s) ∧ bandOffset all ((all.drop s).take m) = .ok (s : ℤ) := by
  have hlen : ((all.drop s).take m).length = m := by rw [List.length_take, List.length_drop]; omega
  have hb : ∀ k, k < m → ((all.drop s).take m)[k]? = all[s + k]? := by
    intro k hk; rw [List.getElem?_take_of_lt hk, List.getElem?_drop]
  have hb0 : ∀ k a, ((all.drop s).take m)[k]? = some a → all[s + k]? = some a := by
    intro k a h
    have hk : k < m := by have := (List.getElem?_eq_some_iff.1 h).1; omega
    rw [← hb k hk]; exact h
  have hinj : ∀ i j : ℕ, i < all.length → j < all.length → (∀ a b, all[i]? = some a → all[j]? = some b → a = b) → i = j := by
    intro i j hi hj h
    have := h _ _ (List.getElem?_eq_getElem hi) (List.getElem?_eq_getElem hj)
    exact (List.Nodup.getElem_inj_iff hn).1 this
  have hne : m + all.length - 1 ≠ 0 := by omega
  constructor
  · obtain ⟨o, h1, h2, h3, h4, -⟩ := C144_offset ((all.drop s).take m) all (by omega)
    have hz : shiftError ((all.drop s).take m) all (-(s : ℤ)) = 0 := by
      rw [shiftError_zero]
      intro k a b ha hb'
      have e1 : (max (-(s : ℤ)) 0).toNat = 0 := by omega
      have e2 : (max (-(-(s : ℤ))) 0).toNat = s := by omega
      rw [e1, Nat.zero_add] at ha
      rw [e2, hb0 k a ha] at hb'
      exact Option.some.inj hb'
    have ho : shiftError ((all.drop s).take m) all o = 0 :=
      le_antisymm (by rw [← hz]; exact h4 _ (by omega) (by omega)) (shiftError_nonneg _ _ _)
    rw [h1]
    congr 1
    rw [shiftError_zero] at ho
    rw [hlen] at h3
    have hh := ho 0
    rw [Nat.add_zero, Nat.add_zero, hb _ (by omega)] at hh
    have := hinj _ _ (by omega) (by omega) hh
    omega
  · obtain ⟨o, h1, h2, h3, h4, -⟩ := C144_offset all ((all.drop s).take m) (by omega)
    have hz : shiftError all ((all.drop s).take m) (s : ℤ) = 0 := by
      rw [shiftError_zero]
      intro k a b ha hb'
      have e1 : (max (s : ℤ) 0).toNat = s := by omega
      have e2 : (max (-(s : ℤ)) 0).toNat = 0 := by omega
      rw [e2, Nat.zero_add] at hb'
      rw [e1, hb0 k b hb'] at ha
      exact (Option.some.inj ha).symm
    have ho : shiftError all ((all.drop s).take m) o = 0 :=
      le_antisymm (by rw [← hz]; exact h4 _ (by omega) (by omega)) (shiftError_nonneg _ _ _)
    rw [h1]
    congr 1
    rw [shiftError_zero] at ho
    rw [hlen] at h2
    have hh := ho 0
    rw [Nat.add_zero, Nat.add_zero, hb _ (by omega)] at hh
    have := hinj _ _ (by omega) (by omega) hh
    omega

example : ([-1, 0, 2, 5] : List ℝ).Nodup ∧ (([-1, 0, 2, 5] : List ℝ).drop 1).take 2 = [0, 2] := by
  refine ⟨?_, rfl⟩
  norm_num

/-- **C144, disagreement** `plot_comparison` promises that "the matching of band colors is done automatically".  For two equal functions with `n ≥ 2`
bands that meet at the first point of the path the shift is `1 - n`, not 0: every shift has the error 0 and the first is taken.  No band has the colour
that it has in the other plot. -/
theorem C144_defect_degenerate (n : ℕ) (hn : 2 ≤ n) (E : ℝ) :
    bandOffset (List.replicate n E) (List.replicate n E) = .ok (1 - n : ℤ) ∧ ∀ j, colour1 (1 - n : ℤ) j ≠ colour2 (1 - n : ℤ) j := by
  constructor
  · obtain ⟨o, h1, h2, h3, h4, h5⟩ := C144_offset (List.replicate n E) (List.replicate n E) (by simp; omega)
    have hz : ∀ i : ℤ, shiftError (List.replicate n E) (List.replicate n E) i = 0 := by
      intro i
      rw [shiftError_zero]
      intro k a b ha hb
      rw [List.getElem?_replicate] at ha hb
      split at ha <;> split at hb <;> simp_all
    rw [h1]
    congr 1
    simp only [List.length_replicate] at h2 h3 h5
    by_contra hne
    have := h5 (1 - n) (le_refl _) (by omega)
    rw [hz, hz] at this
    exact lt_irrefl _ this
  · intro j h
    rw [C144_colours] at h
    omega

end TB.PropsKPlot
