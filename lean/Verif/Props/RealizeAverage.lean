import Mathlib.Algebra.Order.Archimedean.Basic
import Mathlib.Data.Rat.Floor
import Mathlib.LinearAlgebra.Matrix.Notation
import Mathlib.Tactic.NormNum
import Mathlib.Tactic.FieldSimp
import Mathlib.Tactic.IntervalCases
import Verif.Lemmas.Interpolate
import Verif.Spec.Group

/-!
# Property C111: `realize_symmetric_data(average_bad_duplicates=True)`
-/

set_option linter.unusedSectionVars false

namespace TB
open Spec

variable {K : Type} [Field K] [LinearOrder K] [IsStrictOrderedRing K] {d B : ℕ}

/-- The point `x`, folded into the cell `[-1/2, 1/2[` if `unitCell`. -/
def Spec.fold [FloorRing K] (unitCell : Bool) (x : Vec K d) : Vec K d := if unitCell then fun i => x i - ⌊x i + 1 / 2⌋ else x

/-- The positions of the given points that have the image `x`. -/
noncomputable def Spec.sources [FloorRing K] (σ : Sym K d) (unitCell : Bool) (ks : List (Vec K d)) (x : Vec K d) : Finset ℕ :=
  open Classical in (Finset.range ks.length).filter fun i => ∃ s ∈ σ.ops, x = Spec.fold unitCell (s.mulVec (ks.getD i 0))

theorem fold_eq [FloorRing K] (unitCell : Bool) :
    (fun x : Vec K d => if unitCell then fun i => wrapCell (x i) else x) = Spec.fold unitCell := by
  funext x
  unfold Spec.fold
  split_ifs
  · funext i
    rw [wrapCell, Int.fract]; ring
  · rfl

theorem mem_sources [FloorRing K] {σ : Sym K d} {unitCell : Bool} {ks : List (Vec K d)} {x : Vec K d} {i : ℕ} :
    i ∈ Spec.sources σ unitCell ks x ↔ ∃ k, ks[i]? = some k ∧ ∃ s ∈ σ.ops, x = Spec.fold unitCell (s.mulVec k) := by
  classical
  rw [Spec.sources, Finset.mem_filter, Finset.mem_range]
  constructor
  · rintro ⟨hi, h⟩
    rw [List.getD_eq_getElem _ _ hi] at h
    exact ⟨_, List.getElem?_eq_getElem hi, h⟩
  · rintro ⟨k, hk, h⟩
    obtain ⟨hi, rfl⟩ := List.getElem?_eq_some_iff.1 hk
    rw [List.getD_eq_getElem _ _ hi]
    exact ⟨hi, h⟩

/-- Form of the result. -/
theorem average_form [FloorRing K] {σ : Sym K d} (hid : 1 ∈ σ.ops) (κ : K → K) (unitCell : Bool) {ks : List (Vec K d)} (hne : ks ≠ [])
    (data : List (Fin B → K)) (hlen : ks.length ≤ data.length) :
    ∃ (l : List (Vec K d × List ℕ)) (out : List (Vec K d × (Fin B → K))), σ.realizeCollect κ unitCell ks = .ok l ∧
      σ.realizeAverage κ unitCell ks data = .ok out ∧ out = l.map fun p => (p.1, meanRow (p.2.map fun i => data.getD i 0)) := by
  obtain ⟨l, h1, -, h3, h4, -, h5, -⟩ := realizeCollect_spec (κ := κ) (unitCell := unitCell) hid hne
  have hr : ∀ p ∈ l, p.2.mapM (fun i => data[i]?) = some (p.2.map fun i => data.getD i 0) := by
    intro p hp
    cases hm : p.2.mapM fun i => data[i]? with
    | none =>
      obtain ⟨i, hi, he⟩ := mapM_option_none.1 hm
      obtain ⟨k, hk, -⟩ := h5 p.1 p.2 hp i hi
      have := (List.getElem?_eq_some_iff.1 hk).1
      rw [List.getElem?_eq_none_iff] at he; omega
    | some r =>
      have h6 := mapM_option_some hm
      congr 1
      apply List.map_injective_iff.2 (Option.some_injective _)
      rw [h6, List.map_map]
      apply List.map_congr_left
      intro i hi
      obtain ⟨k, hk, -⟩ := h5 p.1 p.2 hp i hi
      have := (List.getElem?_eq_some_iff.1 hk).1
      rw [Function.comp_apply, List.getD_eq_getElem _ _ (by omega), List.getElem?_eq_getElem]
  rcases mapM_except (fun p : Vec K d × List ℕ => p.2.mapM fun i => data[i]?) (fun p rows => (p.1, meanRow rows)) .indexError l with
    ⟨-, out, h6, h7⟩ | ⟨⟨x, hx, h6⟩, -⟩
  · refine ⟨l, out, h1, ?_, ?_⟩
    · rw [Sym.realizeAverage, h1]
      refine Eq.trans ?_ h6
      dsimp only
      congr 1
      funext p
      cases p.2.mapM fun i => data[i]? <;> rfl
    · apply List.map_injective_iff.2 (Option.some_injective _)
      rw [h7, List.map_map]
      apply List.map_congr_left
      intro p hp
      rw [hr p hp]; rfl
  · rw [hr x hx] at h6; cases h6

/-- **C111** `realize_symmetric_data(average_bad_duplicates=True)` returns exactly the images of the given points, folded into the unit cell on request.
If the keys of the sorts separate these points, every point is returned once and its row is the mean of the rows of all given points that have it as
image, each counted once. -/
theorem C111_average [FloorRing K] (σ : Sym K d) (hg : IsMatGroup σ.ops) (κ : K → K) (unitCell : Bool) (ks : List (Vec K d)) (hne : ks ≠ [])
    (data : List (Fin B → K)) (hlen : ks.length ≤ data.length) :
    ∃ out, σ.realizeAverage κ unitCell ks data = .ok out ∧
      (∀ x, x ∈ out.map Prod.fst ↔ ∃ k ∈ ks, ∃ s ∈ σ.ops, x = Spec.fold unitCell (s.mulVec k)) ∧
      ((∀ x ∈ out.map Prod.fst, ∀ y ∈ out.map Prod.fst, (∀ i, κ (x i) = κ (y i)) → x = y) →
        (out.map Prod.fst).Nodup ∧
        ∀ x v, (x, v) ∈ out → ∀ b, v b = (∑ i ∈ Spec.sources σ unitCell ks x, data.getD i 0 b) / (Spec.sources σ unitCell ks x).card) := by
  obtain ⟨l, out, h1, h2, rfl⟩ := average_form hg.one_mem κ unitCell hne data hlen
  obtain ⟨l', g1, -, g3, g4, -, g5, g6⟩ := realizeCollect_spec (κ := κ) (unitCell := unitCell) hg.one_mem hne
  rw [h1] at g1
  obtain rfl := Except.ok.inj g1
  have hfst : (l.map fun p => (p.1, meanRow (p.2.map fun i => data.getD i 0))).map Prod.fst = l.map Prod.fst := by
    rw [List.map_map]; rfl
  have hw := fold_eq (K := K) (d := d) unitCell
  refine ⟨_, h2, ?_, ?_⟩
  · intro x
    rw [hfst, g3]
    constructor
    · rintro ⟨i, k, hk, s, hs, rfl⟩
      exact ⟨k, List.mem_of_getElem? hk, s, hs, congrFun hw _⟩
    · rintro ⟨k, hk, s, hs, rfl⟩
      obtain ⟨i, hi⟩ := List.mem_iff_getElem?.1 hk
      exact ⟨i, k, hi, s, hs, (congrFun hw _).symm⟩
  · rw [hfst]
    intro hκ
    obtain ⟨hnd, hall⟩ := g6 hκ
    refine ⟨hnd, ?_⟩
    intro x v hx b
    obtain ⟨p, hp, he⟩ := List.mem_map.1 hx
    obtain ⟨rfl, rfl⟩ := Prod.mk.inj he
    have hset : p.2.toFinset = Spec.sources σ unitCell ks p.1 := by
      ext i
      rw [List.mem_toFinset, mem_sources]
      constructor
      · intro hi
        obtain ⟨k, hk, s, hs, h⟩ := g5 p.1 p.2 hp i hi
        exact ⟨k, hk, s, hs, h.trans (congrFun hw _)⟩
      · rintro ⟨k, hk, s, hs, h⟩
        exact hall p.1 p.2 hp i k hk ⟨s, hs, h.trans (congrFun hw _).symm⟩
    have hn := (g4 p.1 p.2 hp).1
    rw [← hset, List.sum_toFinset _ hn, List.toFinset_card_of_nodup hn, meanRow, List.map_map, List.length_map]
    rfl

/-- **C111** If given points with a common image have the same row, the row of every image is copied without change. -/
theorem C111_consistent [FloorRing K] (σ : Sym K d) (hg : IsMatGroup σ.ops) (κ : K → K) (unitCell : Bool) (ks : List (Vec K d)) (hne : ks ≠ [])
    (data : List (Fin B → K)) (hlen : ks.length ≤ data.length)
    (hcons : ∀ (i j : ℕ) (a b : Vec K d), ks[i]? = some a → ks[j]? = some b →
      (∃ s ∈ σ.ops, ∃ t ∈ σ.ops, Spec.fold unitCell (s.mulVec a) = Spec.fold unitCell (t.mulVec b)) → data[i]? = data[j]?) :
    ∃ out, σ.realizeAverage κ unitCell ks data = .ok out ∧
      ∀ x v, (x, v) ∈ out ↔ ∃ (i : ℕ) (k : Vec K d), ks[i]? = some k ∧ data[i]? = some v ∧ ∃ s ∈ σ.ops, x = Spec.fold unitCell (s.mulVec k) := by
  obtain ⟨l, out, h1, h2, rfl⟩ := average_form hg.one_mem κ unitCell hne data hlen
  obtain ⟨l', g1, -, g3, g4, -, g5, -⟩ := realizeCollect_spec (κ := κ) (unitCell := unitCell) hg.one_mem hne
  rw [h1] at g1
  obtain rfl := Except.ok.inj g1
  have hw := fold_eq (K := K) (d := d) unitCell
  -- the mean of equal rows
  have hmean : ∀ p ∈ l, ∀ (i : ℕ) k v, ks[i]? = some k → data[i]? = some v → (∃ s ∈ σ.ops, p.1 = Spec.fold unitCell (s.mulVec k)) →
      meanRow (p.2.map fun i => data.getD i 0) = v := by
    intro p hp i k v hk hv hs
    have hrow : ∀ j ∈ p.2, data.getD j 0 = v := by
      intro j hj
      obtain ⟨k', hk', t, ht, he⟩ := g5 p.1 p.2 hp j hj
      obtain ⟨s, hs, he'⟩ := hs
      have h3 := hcons j i k' k hk' hk ⟨t, ht, s, hs, by rw [← he', he]; exact (congrFun hw _).symm⟩
      rw [List.getD_eq_getElem?_getD, h3, hv]; rfl
    have hmap : (p.2.map fun i => data.getD i 0) = List.replicate p.2.length v := by
      rw [List.eq_replicate_iff]
      refine ⟨by simp, ?_⟩
      intro r hr
      obtain ⟨j, hj, rfl⟩ := List.mem_map.1 hr
      exact hrow j hj
    have hn : (p.2.length : K) ≠ 0 := by
      have := List.length_pos_of_ne_nil (g4 p.1 p.2 hp).2
      exact_mod_cast this.ne'
    funext b
    rw [meanRow, hmap]
    simp only [List.map_replicate, List.sum_replicate, List.length_replicate, nsmul_eq_mul]
    field_simp
  refine ⟨_, h2, ?_⟩
  intro x v
  constructor
  · intro hx
    obtain ⟨p, hp, he⟩ := List.mem_map.1 hx
    obtain ⟨rfl, rfl⟩ := Prod.mk.inj he
    obtain ⟨i, hi⟩ := List.exists_mem_of_ne_nil p.2 (g4 p.1 p.2 hp).2
    obtain ⟨k, hk, s, hs, he⟩ := g5 p.1 p.2 hp i hi
    have hlt := (List.getElem?_eq_some_iff.1 hk).1
    have hv : data[i]? = some (data[i]'(by omega)) := List.getElem?_eq_getElem _
    have he' : p.1 = Spec.fold unitCell (s.mulVec k) := he.trans (congrFun hw _)
    refine ⟨i, k, hk, ?_, s, hs, he'⟩
    rw [hv, hmean p hp i k _ hk hv ⟨s, hs, he'⟩]
  · rintro ⟨i, k, hk, hv, s, hs, rfl⟩
    have hx := (g3 (Spec.fold unitCell (s.mulVec k))).2 ⟨i, k, hk, s, hs, (congrFun hw _).symm⟩
    obtain ⟨p, hp, he⟩ := List.mem_map.1 hx
    refine List.mem_map.2 ⟨p, hp, ?_⟩
    rw [hmean p hp i k v hk hv ⟨s, hs, he⟩, he]

/-- **C111** Without folding, the averaged data is symmetric: every image of a returned point is returned with the same row. -/
theorem C111_symmetric [FloorRing K] (σ : Sym K d) (hg : IsMatGroup σ.ops) (κ : K → K) (ks : List (Vec K d)) (hne : ks ≠ [])
    (data : List (Fin B → K)) (hlen : ks.length ≤ data.length) (out : List (Vec K d × (Fin B → K)))
    (hout : σ.realizeAverage κ false ks data = .ok out)
    (hκ : ∀ x ∈ out.map Prod.fst, ∀ y ∈ out.map Prod.fst, (∀ i, κ (x i) = κ (y i)) → x = y) (x : Vec K d) (v : Fin B → K) (hx : (x, v) ∈ out)
    (s : Mat K d) (hs : s ∈ σ.ops) : (s.mulVec x, v) ∈ out := by
  obtain ⟨out', h1, h2, h3⟩ := C111_average σ hg κ false ks hne data hlen
  rw [hout] at h1
  obtain rfl := Except.ok.inj h1
  obtain ⟨hnd, hval⟩ := h3 hκ
  have hfold : ∀ y : Vec K d, Spec.fold false y = y := fun _ => rfl
  obtain ⟨k, hk, t, ht, he⟩ := (h2 x).1 (List.mem_map.2 ⟨_, hx, rfl⟩)
  have hmem : s.mulVec x ∈ out.map Prod.fst := (h2 _).2 ⟨k, hk, s * t, hg.mul_mem _ hs _ ht, by
    rw [he, hfold, hfold, Matrix.mulVec_mulVec]⟩
  obtain ⟨p, hp, hpe⟩ := List.mem_map.1 hmem
  have hsrc : Spec.sources σ false ks p.1 = Spec.sources σ false ks x := by
    ext i
    rw [mem_sources, mem_sources, hpe]
    obtain ⟨s', hs', hinv⟩ := hg.inv_mem s hs
    constructor
    · rintro ⟨k', hk', t', ht', he'⟩
      refine ⟨k', hk', s' * t', hg.mul_mem _ hs' _ ht', ?_⟩
      rw [hfold] at he' ⊢
      rw [← Matrix.mulVec_mulVec, ← he', Matrix.mulVec_mulVec, hinv.2, Matrix.one_mulVec]
    · rintro ⟨k', hk', t', ht', he'⟩
      refine ⟨k', hk', s * t', hg.mul_mem _ hs _ ht', ?_⟩
      rw [hfold] at he' ⊢
      rw [he', Matrix.mulVec_mulVec]
  have hv : p.2 = v := by
    funext b
    rw [hval p.1 p.2 hp b, hval x v hx b, hsrc]
  rw [← hpe, ← hv]
  exact hp

/-- **C111** No points and too few rows raise `IndexError`. -/
theorem C111_errors [FloorRing K] (σ : Sym K d) (hg : IsMatGroup σ.ops) (κ : K → K) (unitCell : Bool) (ks : List (Vec K d)) (data : List (Fin B → K))
    (h : ks = [] ∨ data.length < ks.length) : σ.realizeAverage κ unitCell ks data = .error .indexError := by
  rcases eq_or_ne ks [] with rfl | hne
  · rfl
  · have hlt := h.resolve_left hne
    obtain ⟨l, h1, -, h3, h4, h4', h5, -⟩ := realizeCollect_spec (κ := κ) (unitCell := unitCell) hg.one_mem hne
    rw [Sym.realizeAverage, h1]
    rcases mapM_except (fun p : Vec K d × List ℕ => p.2.mapM fun i => data[i]?) (fun p rows => (p.1, meanRow rows)) .indexError l with
      ⟨h6, -⟩ | ⟨-, h6⟩
    · obtain ⟨x, is, hx, hi⟩ := h4' data.length hlt
      exact absurd (mapM_option_none.2 ⟨data.length, hi, by simp⟩) (h6 _ hx)
    · refine Eq.trans ?_ h6
      dsimp only
      congr 1
      funext p
      cases p.2.mapM fun i => data[i]? <;> rfl

/-- Mirror symmetry of the line, given by the inversion. -/
def exMirrorLine : Sym ℚ 1 := ⟨[1], true⟩

theorem exMirrorLine_ops : exMirrorLine.ops = [1, -1] := by
  simp [exMirrorLine, Sym.ops]

theorem exMirrorLine_group : IsMatGroup exMirrorLine.ops := by
  rw [exMirrorLine_ops]
  refine ⟨by simp, ?_, ?_⟩
  · intro a ha b hb
    simp only [List.mem_cons, List.not_mem_nil, or_false] at ha hb ⊢
    rcases ha with rfl | rfl <;> rcases hb with rfl | rfl <;> simp
  · intro a ha
    refine ⟨a, ha, ?_⟩
    simp only [List.mem_cons, List.not_mem_nil, or_false] at ha
    rcases ha with rfl | rfl <;> simp

/-- The samples `1/4`, `-1/4` with the values `1` and `3`: both points get the mean. -/
example : ∃ out, exMirrorLine.realizeAverage id false [![1 / 4], ![-1 / 4]] [![1], ![3]] = .ok out ∧ (![1 / 4], ![2]) ∈ out := by
  obtain ⟨out, h1, h2, h3⟩ := C111_average exMirrorLine exMirrorLine_group id false [![1 / 4], ![-1 / 4]] (by simp) [![1], ![3]] (by simp)
  refine ⟨out, h1, ?_⟩
  obtain ⟨-, hv⟩ := h3 fun x _ y _ h => funext h
  obtain ⟨p, hp, he⟩ := List.mem_map.1 ((h2 ![1 / 4]).2 ⟨![1 / 4], by simp, 1, by simp [exMirrorLine_ops], by simp [Spec.fold]⟩)
  have hsrc : Spec.sources exMirrorLine false [![1 / 4], ![-1 / 4]] ![1 / 4] = {0, 1} := by
    ext i
    rw [mem_sources]
    constructor
    · rintro ⟨k, hk, -⟩
      have := (List.getElem?_eq_some_iff.1 hk).1
      simp at this ⊢; omega
    · intro hi
      simp only [Finset.mem_insert, Finset.mem_singleton] at hi
      rcases hi with rfl | rfl
      · exact ⟨![1 / 4], rfl, 1, by simp [exMirrorLine_ops], by simp [Spec.fold]⟩
      · refine ⟨![-1 / 4], rfl, -1, by simp [exMirrorLine_ops], ?_⟩
        simp [Spec.fold, Matrix.neg_mulVec]
        norm_num
  have h4 := hv p.1 p.2 hp 0
  rw [he, hsrc] at h4
  have h5 : p.2 = ![2] := by
    funext b
    rw [Subsingleton.elim b 0, h4]
    simp; norm_num
  rw [← he, ← h5]; exact hp

/-- The hypothesis of `C111_consistent` holds for the same samples with equal rows. -/
example : ∃ out, exMirrorLine.realizeAverage id false [![1 / 4], ![-1 / 4]] [![3], ![3]] = .ok out ∧ (![-1 / 4], ![3]) ∈ out := by
  obtain ⟨out, h1, h2⟩ := C111_consistent exMirrorLine exMirrorLine_group id false [![1 / 4], ![-1 / 4]] (by simp) [![3], ![3]] (by simp) (by
    intro i j a b hi hj _
    have h1 := (List.getElem?_eq_some_iff.1 hi).1
    have h2 := (List.getElem?_eq_some_iff.1 hj).1
    simp at h1 h2
    interval_cases i <;> interval_cases j <;> rfl)
  exact ⟨out, h1, (h2 _ _).2 ⟨1, ![-1 / 4], rfl, rfl, 1, by simp [exMirrorLine_ops], by simp [Spec.fold]⟩⟩

end TB
