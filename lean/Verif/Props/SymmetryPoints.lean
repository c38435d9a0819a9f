import Verif.Lemmas.SymmetryPoints
import Verif.Props.Symmetry
import Mathlib.Data.Rat.Floor
import Mathlib.Algebra.Order.Round

/-!
# Properties C07–C11, C15, C16: symmetry operations acting on points
-/

set_option linter.unusedSectionVars false

namespace TB
open Spec

variable {K : Type} [Field K] [LinearOrder K] [IsStrictOrderedRing K] {d : ℕ}

/-- all operations of a generated symmetry are listed equally often -/
theorem fromGenerator_mult {G : List (Mat K d)} {inversion : Bool} {σ : Sym K d}
    (h : fromGenerator G inversion = .ok σ) : ∃ m, 0 < m ∧ ∀ x ∈ σ.ops, σ.ops.count x = m := by
  by_cases hc : d % 2 = 1 ∨ inversion = false ∨ ¬ ∃ l : List (Mat K d), (∀ g ∈ l, g ∈ G) ∧ l.prod = -1
  · exact ⟨1, one_pos, fun x hx => List.count_eq_one_of_mem (C05_len_counts_operations G inversion σ h hc).1 hx⟩
  · push Not at hc
    obtain ⟨hd, hi, l, hl, hprod⟩ := hc
    obtain ⟨S, hS, -, -, hnd, h1, hG, hcl, -, -⟩ := fromGenerator_ok h
    obtain ⟨-, -, hcases⟩ := mkSym_cases hS
    simp only [mem_map_neg] at hcases
    have hm : (-1 : Mat K d) ∈ S := by
      rw [← hprod]
      clear hprod
      induction l with
      | nil => simpa using h1
      | cons a l ih =>
        rw [List.prod_cons]
        exact hcl _ (hG _ (hl a (by simp))) _ (ih (fun g hg => hl g (by simp [hg])))
    have hneg : ∀ s ∈ S, -s ∈ S := fun s hs => by simpa using hcl _ hm _ hs
    have hi' : inversion = true := by simpa using hi
    rcases hcases with ⟨hn, hd', rfl⟩ | ⟨hn, hd', rfl⟩ | ⟨hn, _, hd', rfl⟩ | ⟨hn, hd', rfl⟩
    · exact absurd hd' hd
    · refine ⟨2, two_pos, ?_⟩
      intro x hx
      have hxS : x ∈ S := by
        rcases mem_ops.1 hx with h | ⟨-, h⟩
        · exact h
        · simpa using hneg _ h
      simp only [Sym.ops, hi', if_true, List.count_append]
      rw [List.count_eq_one_of_mem hnd hxS, List.count_eq_one_of_mem
        (hnd.map (fun a b h => neg_injective h)) (mem_map_neg.2 (hneg x hxS))]
    · exact absurd hneg hn
    · exact absurd hneg hn

/-- **C07** For every generated symmetry, `r_class_size(r)` is the number of distinct images of `r`. -/
theorem C07_r_class_size (G : List (Mat K d)) (inversion : Bool) (σ : Sym K d)
    (h : fromGenerator G inversion = .ok σ) (r : Vec K d) :
    σ.rClassSize r = ((distinctCount (σ.ops.map fun s => s.mulVec r) : ℕ) : K) := by
  obtain ⟨m, hm0, hm⟩ := fromGenerator_mult h
  have hg := (C01_from_generator_group G inversion σ h).1
  have h1 : σ.len = σ.ops.toFinset.card * m := by
    have := countP_of_mult hm (fun _ => true)
    rw [← length_ops]
    simpa using this
  have h2 : (σ.signs.map fun sg => σ.S.countP fun s => decide ((sg • s - 1).mulVec r = 0)).sum =
      (σ.ops.toFinset.filter (fun s => s.mulVec r = r)).card * m := by
    have := countP_signs σ (fun s => decide ((s - 1).mulVec r = 0))
    rw [this, countP_of_mult hm]
    simp [sub_one_mulVec_eq_zero]
  have h3 := orbit_stabiliser hg r
  have hpos : 0 < (σ.ops.toFinset.filter (fun s => s.mulVec r = r)).card :=
    Finset.card_pos.2 ⟨1, by simp [hg.one_mem]⟩
  unfold Sym.rClassSize distinctCount
  rw [h2, h1, h3]
  have ha : ((σ.ops.toFinset.filter (fun s => s.mulVec r = r)).card : K) ≠ 0 := by exact_mod_cast hpos.ne'
  have hb : (m : K) ≠ 0 := by exact_mod_cast hm0.ne'
  push_cast
  field_simp

/-- a point on the mirror line of the square group has 4 images, a general point 8, even for the group that lists
every operation twice. -/
example : ∃ σ, fromGenerator [rot4, mirY] true = .ok σ ∧
    decide (σ.rClassSize ![1, 0] = 4 ∧ σ.rClassSize ![1, 2] = 8) = true := okAnd_iff.1 (by decide +kernel)

/-- **C08** `k_weight(k)` is one over the number of operations that map `k` to itself up to an integer vector. -/
theorem C08_k_weight_value [FloorRing K] (σ : Sym K d) (k : Vec K d) :
    σ.kWeight k = 1 / ((σ.ops.filter (fun s => decide (∀ i, Int.fract (s.mulVec k i - k i) = 0))).length : K) := by
  unfold Sym.kWeight
  have := countP_signs σ (fun s => decide (∑ i, pingpong ((s - 1).mulVec k i) = 0))
  rw [this, List.countP_eq_length_filter]
  congr 4
  funext s
  rw [Bool.eq_iff_iff]
  simp only [decide_eq_true_eq, sum_pingpong_eq_zero]
  refine forall_congr' fun i => ?_
  rw [Int.fract_eq_zero_iff, Matrix.sub_mulVec, Matrix.one_mulVec, Pi.sub_apply]
  constructor
  · rintro ⟨n, hn⟩; exact ⟨n, hn.symm⟩
  · rintro ⟨n, hn⟩; exact ⟨n, hn.symm⟩

/-- **C08** `k_weight` lies in `(0, 1]` and is `1/len(sym)` at the origin, for every constructed symmetry. -/
theorem C08_k_weight_range [FloorRing K] (σ : Sym K d) (hσ : ∃ S inv, mkSym S inv = .ok σ) (k : Vec K d) :
    0 < σ.kWeight k ∧ σ.kWeight k ≤ 1 ∧ σ.kWeight 0 = 1 / (σ.len : K) := by
  have h1 : (1 : Mat K d) ∈ σ.ops := mem_ops.2 (Or.inl (Sym.Constructed.one_mem hσ))
  rw [C08_k_weight_value, C08_k_weight_value]
  have hpos : 0 < (σ.ops.filter (fun s => decide (∀ i, Int.fract (s.mulVec k i - k i) = 0))).length :=
    List.length_pos_of_mem (a := (1 : Mat K d)) (by simp [h1])
  have hge : (1 : K) ≤ ((σ.ops.filter (fun s => decide (∀ i, Int.fract (s.mulVec k i - k i) = 0))).length : K) := by
    exact_mod_cast hpos
  refine ⟨by positivity, by rw [div_le_one (by linarith)]; exact hge, ?_⟩
  rw [← length_ops]
  congr 3
  rw [List.filter_eq_self]
  intro s _
  simp

/-- **C08** For integer operations the weight is periodic. -/
theorem C08_k_weight_periodic [FloorRing K] (σ : Sym K d)
    (hint : ∀ s ∈ σ.ops, ∀ i j, ∃ n : ℤ, s i j = n) (k : Vec K d) (g : Fin d → ℤ) :
    σ.kWeight (fun i => k i + g i) = σ.kWeight k := by
  rw [C08_k_weight_value, C08_k_weight_value]
  congr 3
  apply List.filter_congr
  intro s hs
  rw [decide_eq_decide]
  refine forall_congr' fun i => ?_
  choose n hn using hint s hs
  have : s.mulVec (fun i => k i + (g i : K)) i - (k i + g i) =
      (s.mulVec k i - k i) + ((∑ j, n i j * g j - g i : ℤ) : K) := by
    have h1 : (fun i => k i + (g i : K)) = k + fun i => (g i : K) := rfl
    rw [h1, Matrix.mulVec_add, Pi.add_apply]
    have h2 : s.mulVec (fun i => (g i : K)) i = ((∑ j, n i j * g j : ℤ) : K) := by
      simp only [Matrix.mulVec, dotProduct]
      push_cast
      exact Finset.sum_congr rfl fun j _ => by rw [hn i j]
    rw [h2]; push_cast; ring
  rw [this, Int.fract_add_intCast]

/-- **C08** For integer groups the weight is the same on all images of `k`. -/
theorem C08_k_weight_orbit [FloorRing K] (σ : Sym K d) (hg : IsMatGroup σ.ops) (hnd : σ.ops.Nodup)
    (hint : ∀ s ∈ σ.ops, ∀ i j, ∃ n : ℤ, s i j = n) (k : Vec K d) (t : Mat K d) (ht : t ∈ σ.ops) :
    σ.kWeight (t.mulVec k) = σ.kWeight k := by
  rw [C08_k_weight_value, C08_k_weight_value]
  congr 2
  obtain ⟨u, hu, htu, hut⟩ := hg.inv_mem t ht
  -- integer vectors stay integer under integer matrices
  have hiv : ∀ s ∈ σ.ops, ∀ v : Vec K d, (∀ i, Int.fract (v i) = 0) → ∀ i, Int.fract (s.mulVec v i) = 0 := by
    intro s hs v hv i
    choose n hn using hint s hs
    simp only [Int.fract_eq_zero_iff] at hv ⊢
    choose z hz using hv
    refine ⟨∑ j, n i j * z j, ?_⟩
    simp only [Matrix.mulVec, dotProduct]
    push_cast
    exact Finset.sum_congr rfl fun j _ => by rw [hn i j, hz j]
  have hnd' := fun p : Mat K d → Bool => hnd.filter p
  rw [← List.toFinset_card_of_nodup (hnd' _), ← List.toFinset_card_of_nodup (hnd' _)]
  refine Finset.card_nbij' (fun s => u * s * t) (fun s => t * s * u) ?_ ?_ ?_ ?_
  · intro s hs
    simp only [Finset.mem_coe, List.mem_toFinset, List.mem_filter, decide_eq_true_eq] at hs ⊢
    refine ⟨hg.mul_mem _ (hg.mul_mem _ hu _ hs.1) _ ht, ?_⟩
    have h1 := hiv u hu _ hs.2
    intro i
    have h2 := h1 i
    have : (fun i => s.mulVec (t.mulVec k) i - t.mulVec k i) = s.mulVec (t.mulVec k) - t.mulVec k := rfl
    rw [this, Matrix.mulVec_sub, Pi.sub_apply] at h2
    simp only [Matrix.mulVec_mulVec, hut, Matrix.one_mulVec, ← Matrix.mul_assoc] at h2
    exact h2
  · intro s hs
    simp only [Finset.mem_coe, List.mem_toFinset, List.mem_filter, decide_eq_true_eq] at hs ⊢
    refine ⟨hg.mul_mem _ (hg.mul_mem _ ht _ hs.1) _ hu, ?_⟩
    have h1 := hiv t ht _ hs.2
    intro i
    have h2 := h1 i
    have : (fun i => s.mulVec k i - k i) = s.mulVec k - k := rfl
    rw [this, Matrix.mulVec_sub, Pi.sub_apply] at h2
    have h3 : (t * s * u).mulVec (t.mulVec k) = t.mulVec (s.mulVec k) := by
      simp only [Matrix.mulVec_mulVec, Matrix.mul_assoc, hut, Matrix.mul_one]
    rw [h3]; exact h2
  · intro s _
    show t * (u * s * t) * u = s
    calc t * (u * s * t) * u = (t * u) * s * (t * u) := by simp only [Matrix.mul_assoc]
      _ = s := by rw [htu, Matrix.one_mul, Matrix.mul_one]
  · intro s _
    show u * (t * s * u) * t = s
    calc u * (t * s * u) * t = (u * t) * s * (u * t) := by simp only [Matrix.mul_assoc]
      _ = s := by rw [hut, Matrix.one_mul, Matrix.mul_one]

example : ∃ σ, fromGenerator [rot4, mirY] false = .ok σ ∧
    decide (σ.kWeight ![1/2, 0] = 1/4 ∧ σ.kWeight ![1/2, 1/2] = 1/8 ∧ σ.kWeight ![1/3, 1/5] = 1) = true :=
  okAnd_iff.1 (by decide +kernel)

/-- **C09** `realize_symmetric(k)`: the returned points are exactly the images of the input points (so they contain
the input and are closed under the operations), and the returned index names a source point of which the returned
point is an image. -/
theorem C09_realize_points [FloorRing K] (σ : Sym K d) (hg : IsMatGroup σ.ops) (κ : K → K)
    (ks : List (Vec K d)) (hne : ks ≠ []) :
    ∃ out, σ.realize κ false ks = .ok out ∧
      (∀ x, x ∈ out.map Prod.fst ↔ ∃ k ∈ ks, ∃ s ∈ σ.ops, x = s.mulVec k) ∧
      (∀ x i, (x, i) ∈ out → ∃ k, ks[i]? = some k ∧ ∃ s ∈ σ.ops, x = s.mulVec k) ∧
      (∀ k ∈ ks, k ∈ out.map Prod.fst) ∧
      (∀ x ∈ out.map Prod.fst, ∀ s ∈ σ.ops, s.mulVec x ∈ out.map Prod.fst) := by
  obtain ⟨out, h⟩ := realize_ok (σ := σ) (κ := κ) (unitCell := false) hne
  obtain ⟨h1, h2, -⟩ := realize_spec hg.one_mem h
  simp only [Bool.false_eq_true, if_false] at h1 h2
  have key : ∀ x, x ∈ out.map Prod.fst ↔ ∃ k ∈ ks, ∃ s ∈ σ.ops, x = s.mulVec k := by
    intro x
    constructor
    · intro hx
      obtain ⟨⟨y, i⟩, hy, rfl⟩ := List.mem_map.1 hx
      obtain ⟨k, hk, s, hs, he⟩ := h1 y i hy
      exact ⟨k, List.mem_of_getElem? hk, s, hs, he⟩
    · rintro ⟨k, hk, s, hs, rfl⟩
      obtain ⟨i, hi⟩ := List.mem_iff_getElem?.1 hk
      obtain ⟨j, hj⟩ := h2 i k hi s hs
      exact List.mem_map.2 ⟨_, hj, rfl⟩
  refine ⟨out, h, key, h1, ?_, ?_⟩
  · intro k hk
    exact (key k).2 ⟨k, hk, 1, hg.one_mem, by simp⟩
  · intro x hx s hs
    obtain ⟨k, hk, t, ht, rfl⟩ := (key x).1 hx
    exact (key _).2 ⟨k, hk, s * t, hg.mul_mem _ hs _ ht, by rw [Matrix.mulVec_mulVec]⟩

/-- **C09** No returned point is repeated, provided the rounding in the sort key does not identify two different
returned points. -/
theorem C09_realize_unique [FloorRing K] (σ : Sym K d) (hid : 1 ∈ σ.ops) (κ : K → K) (unitCell : Bool)
    (ks : List (Vec K d)) (out : List (Vec K d × ℕ)) (h : σ.realize κ unitCell ks = .ok out)
    (hκ : ∀ x ∈ out.map Prod.fst, ∀ y ∈ out.map Prod.fst, (∀ i, κ (x i) = κ (y i)) → x = y) :
    (out.map Prod.fst).Nodup :=
  (realize_spec hid h).2.2 hκ

/-- **C09** With `unit_cell=True` the result consists of the images folded into `[-1/2, 1/2[`. -/
theorem C09_realize_unit_cell [FloorRing K] (σ : Sym K d) (hg : IsMatGroup σ.ops) (κ : K → K)
    (ks : List (Vec K d)) (hne : ks ≠ []) :
    ∃ out, σ.realize κ true ks = .ok out ∧
      (∀ x ∈ out.map Prod.fst, ∀ i, -(1 / 2) ≤ x i ∧ x i < 1 / 2) ∧
      (∀ k ∈ ks, ∀ s ∈ σ.ops, ∃ x ∈ out.map Prod.fst, ∀ i, ∃ n : ℤ, x i = s.mulVec k i + n) ∧
      (∀ x i, (x, i) ∈ out → ∃ k, ks[i]? = some k ∧ ∃ s ∈ σ.ops, ∀ j, ∃ n : ℤ, x j = s.mulVec k j + n) := by
  obtain ⟨out, h⟩ := realize_ok (σ := σ) (κ := κ) (unitCell := true) hne
  obtain ⟨h1, h2, -⟩ := realize_spec hg.one_mem h
  simp only [if_true] at h1 h2
  have hw : ∀ x : K, ∃ n : ℤ, wrapCell x = x + n := by
    intro x
    refine ⟨-⌊x + 1 / 2⌋, ?_⟩
    unfold wrapCell
    have := Int.floor_add_fract (x + 1 / 2)
    push_cast
    linarith
  refine ⟨out, h, ?_, ?_, ?_⟩
  · intro x hx j
    obtain ⟨⟨y, i⟩, hy, rfl⟩ := List.mem_map.1 hx
    obtain ⟨k, hk, s, hs, he⟩ := h1 y i hy
    rw [he]
    simp only [wrapCell]
    have a := Int.fract_nonneg (s.mulVec k j + 1 / 2)
    have b := Int.fract_lt_one (s.mulVec k j + 1 / 2)
    constructor <;> linarith
  · intro k hk s hs
    obtain ⟨i, hi⟩ := List.mem_iff_getElem?.1 hk
    obtain ⟨j, hj⟩ := h2 i k hi s hs
    exact ⟨_, List.mem_map.2 ⟨_, hj, rfl⟩, fun i => hw _⟩
  · intro x i hx
    obtain ⟨k, hk, s, hs, he⟩ := h1 x i hx
    exact ⟨k, hk, s, hs, fun j => by rw [he]; exact hw _⟩

/-- two related input points and the origin, key rounded to four digits -/
example : ∃ out, (⟨[1, rot4, -1, -rot4], false⟩ : Sym ℚ 2).realize (fun x => (round (10000 * x) : ℚ) / 10000) false
      [![0, 0], ![1, 0], ![0, -1]] = .ok out ∧
    decide (out = [(![0, -1], 2), (![-1, 0], 1), (![0, 0], 0), (![1, 0], 1), (![0, 1], 1)]) = true :=
  okAnd_iff.1 (by decide +kernel)

/-- **C10** If the input points are pairwise inequivalent, `realize_symmetric_data` returns for every image of the
`i`-th point exactly the `i`-th data value. -/
theorem C10_realize_data [FloorRing K] {D : Type} (σ : Sym K d) (hg : IsMatGroup σ.ops) (κ : K → K)
    (ks : List (Vec K d)) (data : List D) (hne : ks ≠ []) (hlen : ks.length ≤ data.length)
    (hineq : ∀ (i j : ℕ) (a b : Vec K d), ks[i]? = some a → ks[j]? = some b →
      (∃ s ∈ σ.ops, b = s.mulVec a) → i = j) :
    ∃ out, σ.realizeData κ false ks data = .ok out ∧
      ∀ x v, (x, v) ∈ out ↔ ∃ (i : ℕ) (k : Vec K d), ks[i]? = some k ∧ data[i]? = some v ∧ ∃ s ∈ σ.ops, x = s.mulVec k := by
  obtain ⟨l, h⟩ := realize_ok (σ := σ) (κ := κ) (unitCell := false) hne
  obtain ⟨h1, h2, -⟩ := realize_spec hg.one_mem h
  simp only [Bool.false_eq_true, if_false] at h1 h2
  unfold Sym.realizeData
  rw [h]
  simp only
  have hdat : ∀ p ∈ l, ∃ v, data[p.2]? = some v := by
    intro p hp
    obtain ⟨k, hk, -⟩ := h1 p.1 p.2 hp
    have := (List.getElem?_eq_some_iff.1 hk).1
    exact ⟨data[p.2]'(by omega), List.getElem?_eq_getElem (by omega)⟩
  have hmap : ∀ l : List (Vec K d × ℕ), (∀ p ∈ l, ∃ v, data[p.2]? = some v) →
      ∃ out, (l.mapM fun p => match data[p.2]? with
        | some v => (Except.ok (p.1, v) : Except Err (Vec K d × D))
        | none => .error .indexError) = .ok out ∧
      ∀ x v, (x, v) ∈ out ↔ ∃ i, (x, i) ∈ l ∧ data[i]? = some v := by
    intro l
    induction l with
    | nil => intro _; exact ⟨[], rfl, by simp⟩
    | cons p l ih =>
      intro hp
      obtain ⟨out, ho, hm⟩ := ih (fun q hq => hp q (by simp [hq]))
      obtain ⟨v, hv⟩ := hp p (by simp)
      refine ⟨(p.1, v) :: out, ?_, ?_⟩
      · rw [List.mapM_cons, hv]
        simp only [ho]
        rfl
      · intro x w
        rw [List.mem_cons, hm]
        constructor
        · rintro (h | ⟨i, hi, hd⟩)
          · simp only [Prod.mk.injEq] at h
            exact ⟨p.2, by rw [h.1]; simp, by rw [h.2]; exact hv⟩
          · exact ⟨i, by simp [hi], hd⟩
        · rintro ⟨i, hi, hd⟩
          rcases List.mem_cons.1 hi with h | h
          · left
            rw [← h] at hv
            simp only at hv
            rw [hd] at hv
            rw [← h]; simp [Option.some.inj hv]
          · exact Or.inr ⟨i, h, hd⟩
  obtain ⟨out, ho, hm⟩ := hmap l hdat
  refine ⟨out, ho, ?_⟩
  intro x v
  rw [hm]
  constructor
  · rintro ⟨i, hi, hv⟩
    obtain ⟨k, hk, s, hs, he⟩ := h1 x i hi
    exact ⟨i, k, hk, hv, s, hs, he⟩
  · rintro ⟨i, k, hk, hv, s, hs, rfl⟩
    obtain ⟨j, hj⟩ := h2 i k hk s hs
    obtain ⟨k', hk', t, ht, he⟩ := h1 _ j hj
    obtain ⟨u, hu, h3, h4⟩ := hg.inv_mem t ht
    have hij : i = j := hineq i j k k' hk hk' ⟨u * s, hg.mul_mem _ hu _ hs, by
      rw [← Matrix.mulVec_mulVec, he, Matrix.mulVec_mulVec, h4, Matrix.one_mulVec]⟩
    subst hij
    exact ⟨i, hj, hv⟩

example : ∃ out, (⟨[1, rot4, -1, -rot4], false⟩ : Sym ℚ 2).realizeData id false
      [![0, 0], ![1, 0]] ["gamma", "x"] = .ok out ∧
    decide (out = [(![0, -1], "x"), (![-1, 0], "x"), (![0, 0], "gamma"), (![1, 0], "x"), (![0, 1], "x")]) = true :=
  okAnd_iff.1 (by decide +kernel)

/-- **C16** Neighbour lookup: what a successful answer means and when there is one. -/
theorem C16_neighbor_lookup (ns : List (Vec K d)) (r : Vec K d) :
    (∀ i, tryNeighbor ns r = some (i, false) → ns[i]? = some r) ∧
    (∀ i, tryNeighbor ns r = some (i, true) → ns[i]? = some (-r) ∧ r ∉ ns) ∧
    (tryNeighbor ns r = none ↔ r ∉ ns ∧ -r ∉ ns) ∧
    (∀ p, neighbor ns r = .ok p ↔ tryNeighbor ns r = some p) ∧
    (∀ e, neighbor ns r = .error e ↔ e = .valueError ∧ r ∉ ns ∧ -r ∉ ns) := by
  have hf : ∀ a : Vec K d, ns.findIdx? (fun n => decide (n = a)) = none ↔ a ∉ ns := by
    intro a
    rw [List.findIdx?_eq_none_iff]
    simp only [decide_eq_false_iff_not]
    exact ⟨fun h ha => h a ha rfl, fun h x hx he => h (he ▸ hx)⟩
  have hs : ∀ (a : Vec K d) i, ns.findIdx? (fun n => decide (n = a)) = some i → ns[i]? = some a := by
    intro a i h
    obtain ⟨hi, h1, -⟩ := List.findIdx?_eq_some_iff_getElem.1 h
    rw [List.getElem?_eq_getElem hi]
    simpa using h1
  have hnone : tryNeighbor ns r = none ↔ r ∉ ns ∧ -r ∉ ns := by
    rw [← hf, ← hf]
    unfold tryNeighbor
    cases h1 : ns.findIdx? (fun n => decide (n = r)) with
    | some i => exact ⟨fun h => by simp at h, fun h => by simp at h⟩
    | none =>
      cases h2 : ns.findIdx? (fun n => decide (n = -r)) with
      | some i => exact ⟨fun h => by simp at h, fun h => by simp at h⟩
      | none => exact ⟨fun _ => ⟨rfl, rfl⟩, fun _ => rfl⟩
  refine ⟨?_, ?_, hnone, ?_, ?_⟩
  · intro i h
    unfold tryNeighbor at h
    split at h
    · rename_i j hj
      simp at h; subst h; exact hs r _ hj
    · split at h <;> simp at h
  · intro i h
    unfold tryNeighbor at h
    split at h
    · simp at h
    · rename_i hn
      split at h
      · rename_i j hj
        simp at h; subst h
        exact ⟨hs _ _ hj, (hf r).1 hn⟩
      · simp at h
  · intro p
    unfold neighbor
    cases h : tryNeighbor ns r <;> simp
  · intro e
    rw [← hnone]
    unfold neighbor
    cases h : tryNeighbor ns r <;> simp
    exact eq_comm

example : tryNeighbor [![0, 0], ![1, 0], ![0, 1]] (![-1, 0] : Vec ℚ 2) = some (1, true) ∧
    tryNeighbor [![0, 0], ![1, 0], ![0, 1]] (![0, 1] : Vec ℚ 2) = some (2, false) ∧
    tryNeighbor [![0, 0], ![1, 0], ![0, 1]] (![1, 1] : Vec ℚ 2) = none := by decide +kernel

end TB
