import Verif.Props.HamiltonianFourier
import Verif.Props.HamiltonianAppend

/-!
# Property C96: `apply`, `realize_symmetric`; C97: `get_band_name`
-/

set_option linter.unusedSectionVars false

namespace TB.HS

open Matrix TB.UR TB.Spec

variable {K : Type} [Field K] [LinearOrder K] [IsStrictOrderedRing K] {d : ℕ}
variable {F : Type} [Field F] [StarRing F] [DecidableEq F]

/-! ## `apply` -/

/-- All orbitals are even under inversion. -/
def AllEven (h : HSym K F d) : Prop := ∀ o ∈ h.orbs, 0 < o.rep.invSplit

/-- All orbitals are at the same place. -/
def SamePlace (h : HSym K F d) : Prop := ∀ o ∈ h.orbs, ∀ o' ∈ h.orbs, o.pos = o'.pos

theorem rowSign_even {h : HSym K F d} (he : AllEven h) (x : ℕ) : rowSign h.orbs.get x = (1 : F) := by
  unfold rowSign
  refine List.prod_eq_one fun y hy => ?_
  obtain ⟨a, -, rfl⟩ := List.mem_map.1 hy
  rw [if_neg (fun h1 => h1.1 (he _ (List.get_mem _ _)))]

/-- **C96** If all orbitals are even, `apply` returns the documented expression `U_a H_ab U_bᴴ exp(2πi k (1+S)(r_a - r_b))`. -/
theorem C96_apply (e : K → F) (he : ∀ x y, e (x + y) = e x * e y) (h : HSym K F d) (hev : AllEven h) (k : Fin d → K)
    (H : BMat h.orbs.get) (q : ℕ) (hq : q < h.sym.S.length) (inversion : Bool) (a b : Fin h.orbs.length) :
    h.apply e k H q inversion a b =
      e (k ⬝ᵥ ((1 : Mat K d) + h.sym.S[q]).mulVec ((h.orbs.get a).pos - (h.orbs.get b).pos)) •
        ((h.orbs.get a).rep.U.getD q 0 * H a b * ((h.orbs.get b).rep.U.getD q 0).conjTranspose) := by
  unfold HSym.apply
  simp only [rowSign_even hev, one_mul]
  rw [← he, List.getD_eq_getElem _ _ hq]
  congr 2
  rw [← dotProduct_neg, ← dotProduct_add]
  congr 1
  rw [Matrix.add_mulVec, Matrix.one_mulVec, Matrix.mulVec_sub]
  abel

theorem e_zero {e : K → F} (he : ∀ x y, e (x + y) = e x * e y) (h0 : e 0 ≠ 0) : e 0 = 1 := by
  have := he 0 0
  rw [add_zero] at this
  exact (mul_right_eq_self₀.1 this.symm).resolve_right h0

/-- **C96** If moreover all orbitals are at the same place, `apply` takes the operator at `k` (for the results of `symmetrize`)
to the operator at `(Sᵀ)⁻¹ k`. -/
theorem C96_apply_same_place [CharZero F] (e : K → F) (he : ∀ x y, e (x + y) = e x * e y) (h0 : e 0 ≠ 0) (h : HSym K F d)
    (hv : Valid h) (hev : AllEven h) (hsp : SamePlace h) (ns : List (Fin d → K)) (hns : HalfList ns)
    (H R : List (BMat h.orbs.get)) (hr : h.symmetrize H ns = .ok R) (k : Fin d → K) (q : ℕ) (hq : q < h.sym.S.length)
    (inversion : Bool) :
    h.apply e k (series e ns R k) q inversion = series e ns R ((h.sym.S[q]ᵀ)⁻¹.mulVec k) := by
  funext a b
  rw [C96_apply e he h hev k _ q hq, C94_rotation e he h hv ns hns H R hr q hq a b k, hsp _ (List.get_mem _ a) _ (List.get_mem _ b)]
  simp [e_zero he h0]

/-! ## `realize_symmetric` -/

/-- One step for a pair of sign and operation. -/
theorem realize_fold (e : K → F) (h : HSym K F d) (k : Fin d → K) (H : BMat h.orbs.get) (inv : K) (L : List (Mat K d × ℕ))
    (st : List (Fin d → K) × List ((Fin d → K) × BMat h.orbs.get)) (h1 : st.1 = k :: st.2.map Prod.fst) (h2 : st.1.Nodup) :
    let st' := L.foldl (realizeStep e h k H inv) st
    st'.1 = k :: st'.2.map Prod.fst ∧ st'.1.Nodup ∧ (∀ x, x ∈ st'.1 ↔ x ∈ st.1 ∨ ∃ p ∈ L, x = inv • p.1.mulVec k) ∧
      ∀ y ∈ st'.2, y ∈ st.2 ∨ ∃ p ∈ L, y = (inv • p.1.mulVec k, h.apply e k H p.2 (decide (inv < 0))) := by
  induction L generalizing st with
  | nil => exact ⟨h1, h2, by simp, fun y hy => Or.inl hy⟩
  | cons p L ih =>
    simp only [List.foldl_cons]
    by_cases hk : inv • p.1.mulVec k ∈ st.1
    · have hst : realizeStep e h k H inv st p = st := by simp only [realizeStep, if_pos hk]
      rw [hst]
      obtain ⟨a1, a2, a3, a4⟩ := ih st h1 h2
      refine ⟨a1, a2, fun x => ?_, fun y hy => ?_⟩
      · rw [a3]
        constructor
        · rintro (hx | ⟨p', hp', hx⟩)
          · exact Or.inl hx
          · exact Or.inr ⟨p', List.mem_cons_of_mem _ hp', hx⟩
        · rintro (hx | ⟨p', hp', hx⟩)
          · exact Or.inl hx
          · rcases List.mem_cons.1 hp' with rfl | hp'
            · exact Or.inl (hx ▸ hk)
            · exact Or.inr ⟨p', hp', hx⟩
      · rcases a4 y hy with hy | ⟨p', hp', hy⟩
        · exact Or.inl hy
        · exact Or.inr ⟨p', List.mem_cons_of_mem _ hp', hy⟩
    · have hst : realizeStep e h k H inv st p = (st.1 ++ [inv • p.1.mulVec k],
          st.2 ++ [(inv • p.1.mulVec k, h.apply e k H p.2 (decide (inv < 0)))]) := by simp only [realizeStep, if_neg hk]
      rw [hst]
      obtain ⟨a1, a2, a3, a4⟩ := ih (st.1 ++ [inv • p.1.mulVec k],
          st.2 ++ [(inv • p.1.mulVec k, h.apply e k H p.2 (decide (inv < 0)))]) (by simp [h1])
          (by simp only [List.nodup_append, List.nodup_singleton, List.mem_singleton]
              refine ⟨h2, trivial, fun a ha b hb hab => hk ?_⟩
              subst hb hab
              exact ha)
      refine ⟨a1, a2, fun x => ?_, fun y hy => ?_⟩
      · rw [a3]
        simp only [List.mem_append, List.mem_singleton, List.exists_mem_cons_iff, or_assoc]
      · rcases a4 y hy with hy | ⟨p', hp', hy⟩
        · rcases List.mem_append.1 hy with hy | hy
          · exact Or.inl hy
          · rw [List.mem_singleton] at hy
            exact Or.inr ⟨p, List.mem_cons_self, hy⟩
        · exact Or.inr ⟨p', List.mem_cons_of_mem _ hp', hy⟩

theorem realize_signs (e : K → F) (h : HSym K F d) (k : Fin d → K) (H : BMat h.orbs.get) (signs : List K)
    (L : List (Mat K d × ℕ))
    (st : List (Fin d → K) × List ((Fin d → K) × BMat h.orbs.get)) (h1 : st.1 = k :: st.2.map Prod.fst) (h2 : st.1.Nodup) :
    let st' := signs.foldl (fun st (inv : K) => L.foldl (realizeStep e h k H inv) st) st
    st'.1 = k :: st'.2.map Prod.fst ∧ st'.1.Nodup ∧
      (∀ x, x ∈ st'.1 ↔ x ∈ st.1 ∨ ∃ inv ∈ signs, ∃ p ∈ L, x = inv • p.1.mulVec k) ∧
      ∀ y ∈ st'.2, y ∈ st.2 ∨ ∃ inv ∈ signs, ∃ p ∈ L, y = (inv • p.1.mulVec k, h.apply e k H p.2 (decide (inv < 0))) := by
  induction signs generalizing st with
  | nil => exact ⟨h1, h2, by simp, fun y hy => Or.inl hy⟩
  | cons inv signs ih =>
    simp only [List.foldl_cons]
    obtain ⟨a1, a2, a3, a4⟩ := realize_fold e h k H inv L st h1 h2
    obtain ⟨b1, b2, b3, b4⟩ := ih _ a1 a2
    refine ⟨b1, b2, fun x => ?_, fun y hy => ?_⟩
    · rw [b3, a3]
      simp only [List.exists_mem_cons_iff, or_assoc]
    · rcases b4 y hy with hy | ⟨i, hi, hy⟩
      · rcases a4 y hy with hy | hy
        · exact Or.inl hy
        · exact Or.inr ⟨inv, List.mem_cons_self, hy⟩
      · exact Or.inr ⟨i, List.mem_cons_of_mem _ hi, hy⟩

theorem mem_zipIdx_get {α : Type} {l : List α} {p : α × ℕ} (hp : p ∈ l.zipIdx) : ∃ hq : p.2 < l.length, l[p.2] = p.1 := by
  obtain ⟨x, i⟩ := p
  have := List.mem_zipIdx hp
  simp only [Nat.zero_add, Nat.sub_zero] at this
  exact ⟨this.2.1, this.2.2.symm⟩

theorem exists_zipIdx {α : Type} {l : List α} {x : α} : (∃ p ∈ l.zipIdx, p.1 = x) ↔ x ∈ l := by
  constructor
  · rintro ⟨p, hp, rfl⟩
    obtain ⟨hq, h⟩ := mem_zipIdx_get hp
    rw [← h]
    exact List.getElem_mem hq
  · intro hx
    obtain ⟨i, hi, rfl⟩ := List.mem_iff_getElem.1 hx
    exact ⟨(l[i], i), by rw [List.mk_mem_zipIdx_iff_getElem?]; simp [hi], rfl⟩

/-- **C96** The points returned by `realize_symmetric`: the given points and all their images, under each operation and with
inversion also the negatives. -/
theorem C96_points (e : K → F) (h : HSym K F d) (hne : h.sym.Constructed) (ks : List ((Fin d → K) × BMat h.orbs.get)) (x : Fin d → K) :
    x ∈ (h.realizeSymmetric e ks).map Prod.fst ↔ ∃ kH ∈ ks, ∃ s ∈ h.sym.ops, x = s.mulVec kH.1 := by
  have hone : (1 : Mat K d) ∈ h.sym.ops := mem_ops.2 (Or.inl hne.one_mem)
  have key : ∀ kH : (Fin d → K) × BMat h.orbs.get, (∃ s ∈ h.sym.ops, x = s.mulVec kH.1) ↔
      x = kH.1 ∨ ∃ inv ∈ (if h.sym.inversion then [1, -1] else [1] : List K), ∃ p ∈ h.sym.S.zipIdx, x = inv • p.1.mulVec kH.1 := by
    intro kH
    constructor
    · rintro ⟨s, hs, rfl⟩
      right
      rcases mem_ops.1 hs with hs | ⟨hi, hs⟩
      · obtain ⟨p, hp, rfl⟩ := exists_zipIdx.2 hs
        exact ⟨1, by split <;> simp, p, hp, by simp⟩
      · obtain ⟨p, hp, h3⟩ := exists_zipIdx.2 hs
        exact ⟨-1, by simp [hi], p, hp, by rw [h3, Matrix.neg_mulVec]; simp⟩
    · rintro (rfl | ⟨inv, hinv, p, hp, rfl⟩)
      · exact ⟨1, hone, by simp⟩
      · have hp' := exists_zipIdx.1 ⟨p, hp, rfl⟩
        by_cases hi : h.sym.inversion
        · simp only [hi, if_true, List.mem_cons, List.not_mem_nil, or_false] at hinv
          rcases hinv with rfl | rfl
          · exact ⟨p.1, mem_ops.2 (Or.inl hp'), by simp⟩
          · exact ⟨-p.1, mem_ops.2 (Or.inr ⟨hi, by rwa [neg_neg]⟩), by simp [Matrix.neg_mulVec]⟩
        · rw [if_neg hi, List.mem_singleton] at hinv
          subst hinv
          exact ⟨p.1, mem_ops.2 (Or.inl hp'), by simp⟩
  have hmem : ∀ kH : (Fin d → K) × BMat h.orbs.get, x ∈ (kH :: if kH.1 = 0 then []
      else ((if h.sym.inversion then [1, -1] else [1]).foldl
        (fun st (inv : K) => h.sym.S.zipIdx.foldl (realizeStep e h kH.1 kH.2 inv) st) ([kH.1], [])).2).map Prod.fst ↔
      ∃ s ∈ h.sym.ops, x = s.mulVec kH.1 := by
    intro kH
    by_cases hk : kH.1 = 0
    · rw [if_pos hk]
      simp only [List.map_cons, List.map_nil, List.mem_singleton, hk, Matrix.mulVec_zero]
      exact ⟨fun h => ⟨1, hone, h⟩, fun ⟨_, _, h⟩ => h⟩
    · rw [if_neg hk]
      obtain ⟨b1, -, b3, -⟩ := realize_signs e h kH.1 kH.2 (if h.sym.inversion then [1, -1] else [1]) h.sym.S.zipIdx ([kH.1], [])
        (by simp) (by simp)
      rw [List.map_cons, ← b1, b3, key]
      simp
  unfold HSym.realizeSymmetric
  simp only [List.map_append, List.mem_append, List.map_flatMap, List.mem_flatMap, List.mem_map (f := Prod.fst) (l := ks)]
  constructor
  · rintro (⟨kH, hkH, h1⟩ | ⟨kH, hkH, h1⟩)
    · exact ⟨kH, hkH, 1, hone, by simp [h1]⟩
    · exact ⟨kH, hkH, (hmem kH).1 (List.mem_cons_of_mem _ h1)⟩
  · rintro ⟨kH, hkH, h1⟩
    rcases List.mem_cons.1 ((hmem kH).2 h1) with h2 | h2
    · exact Or.inl ⟨kH, hkH, h2.symm⟩
    · exact Or.inr ⟨kH, hkH, h2⟩

/-- **C96** From one point no image is returned twice. -/
theorem C96_nodup (e : K → F) (h : HSym K F d) (kH : (Fin d → K) × BMat h.orbs.get) :
    ((h.realizeSymmetric e [kH]).map Prod.fst).Nodup := by
  unfold HSym.realizeSymmetric
  simp only [List.flatMap_cons, List.flatMap_nil, List.append_nil, List.cons_append, List.nil_append]
  by_cases hk : kH.1 = 0
  · rw [if_pos hk]; simp
  · rw [if_neg hk]
    obtain ⟨b1, b2, -, -⟩ := realize_signs e h kH.1 kH.2 (if h.sym.inversion then [1, -1] else [1]) h.sym.S.zipIdx ([kH.1], [])
      (by simp) (by simp)
    rw [List.map_cons, ← b1]
    exact b2

/-- **C96** The operators: if all orbitals are even and at the same place, the operations are orthogonal and the given operators
are those of a result of `symmetrize` at the given points, then every returned operator is the one at its point. -/
theorem C96_values [CharZero F] (e : K → F) (he : ∀ x y, e (x + y) = e x * e y) (h0 : e 0 ≠ 0) (h : HSym K F d)
    (hv : Valid h) (hev : AllEven h) (hsp : SamePlace h) (hO : OrthogonalS h) (ns : List (Fin d → K)) (hns : HalfList ns)
    (H R : List (BMat h.orbs.get)) (hr : h.symmetrize H ns = .ok R) (ks : List (Fin d → K)) :
    ∀ y ∈ h.realizeSymmetric e (ks.map fun k => (k, series e ns R k)), y.2 = series e ns R y.1 := by
  intro y hy
  unfold HSym.realizeSymmetric at hy
  rcases List.mem_append.1 hy with hy | hy
  · obtain ⟨k, -, rfl⟩ := List.mem_map.1 hy
    rfl
  · obtain ⟨kH, hkH, hy⟩ := List.mem_flatMap.1 hy
    obtain ⟨k, -, rfl⟩ := List.mem_map.1 hkH
    simp only at hy
    by_cases hk : k = 0
    · rw [if_pos hk] at hy
      simp at hy
    · rw [if_neg hk] at hy
      obtain ⟨-, -, -, b4⟩ := realize_signs e h k (series e ns R k) (if h.sym.inversion then [1, -1] else [1]) h.sym.S.zipIdx ([k], [])
        (by simp) (by simp)
      rcases b4 y hy with hy | ⟨inv, hinv, p, hp, rfl⟩
      · simp at hy
      · obtain ⟨hq, hp'⟩ := mem_zipIdx_get hp
        have hort : (h.sym.S[p.2]ᵀ)⁻¹ = p.1 := by
          rw [hp']
          exact Matrix.inv_eq_left_inv (hO _ (by rw [← hp']; exact List.getElem_mem hq))
        simp only
        rw [C96_apply_same_place e he h0 h hv hev hsp ns hns H R hr k p.2 hq, hort]
        by_cases hi : h.sym.inversion = true
        · simp only [hi, if_true, List.mem_cons, List.not_mem_nil, or_false] at hinv
          rcases hinv with rfl | rfl
          · rw [one_smul]
          · funext a b
            have hpar : ∀ a, paritySign (h.orbs.get a) = (1 : F) := fun a =>
              if_neg (Nat.pos_iff_ne_zero.1 (hev _ (List.get_mem _ _)))
            rw [neg_smul, one_smul, C94_inversion e he h hv hi ns hns (C92_same_place h ns hsp) H R hr a b, hpar, hpar, hsp _ (List.get_mem _ a) _ (List.get_mem _ b)]
            simp [e_zero he h0]
        · rw [if_neg hi, List.mem_singleton] at hinv
          rw [hinv, one_smul]

/-! ## An example and the disagreements -/

/-- The symmetry consisting of the inversion, with three orbitals at the origin: even, odd, even. -/
def exEOE : HSym ℚ ℚ 3 := ⟨⟨[1], true⟩, [⟨1, ⟨⟨[1], true⟩, [1], 1⟩, 0, "s"⟩, ⟨1, ⟨⟨[1], true⟩, [1], 0⟩, 0, "u"⟩,
  ⟨1, ⟨⟨[1], true⟩, [1], 1⟩, 0, "t"⟩]⟩

theorem exEOE_valid : Valid exEOE := by
  have hr : ∀ k, k = 0 ∨ k = 1 → IsRep (⟨⟨[1], true⟩, [1], k⟩ : Rep ℚ ℚ 3 1) ∧ IsUnitary (⟨⟨[1], true⟩, [1], k⟩ : Rep ℚ ℚ 3 1) := by
    intro k hk
    refine ⟨⟨rfl, by simp, by simp, by simp, ?_, by rcases hk with rfl | rfl <;> simp⟩, ?_⟩
    · intro _ u _ a b hab
      exact absurd (by rw [Subsingleton.elim a b]) hab
    · intro u hu
      simp only [List.mem_singleton] at hu
      subst hu
      simp
  refine ⟨⟨[1], true, by decide +kernel⟩, ?_⟩
  intro o ho
  simp only [exEOE, List.mem_cons, List.not_mem_nil, or_false] at ho
  rcases ho with rfl | rfl | rfl
  · exact ⟨(hr 1 (Or.inr rfl)).1, (hr 1 (Or.inr rfl)).2, rfl, Or.inr rfl⟩
  · exact ⟨(hr 0 (Or.inl rfl)).1, (hr 0 (Or.inl rfl)).2, rfl, Or.inl rfl⟩
  · exact ⟨(hr 1 (Or.inr rfl)).1, (hr 1 (Or.inr rfl)).2, rfl, Or.inr rfl⟩

/-- The matrix with all entries one. -/
def onesE : BMat exEOE.orbs.get := fun _ _ => Matrix.of fun _ _ => 1

theorem exEOE_place : SamePlace exEOE := by
  intro o ho o' ho'
  simp only [exEOE, List.mem_cons, List.not_mem_nil, or_false] at ho ho'
  rcases ho with rfl | rfl | rfl <;> rcases ho' with rfl | rfl | rfl <;> rfl

theorem onesE_ne (a b : Fin 3) : onesE a b ≠ 0 := by
  intro h
  have h0 : ∀ a : Fin 3, 0 < (exEOE.orbs.get a).N := by intro a; fin_cases a <;> decide
  have := congrFun (congrFun h ⟨0, h0 a⟩) ⟨0, h0 b⟩
  simp [onesE] at this

/-- **C96** (disagreement) The identity operation without inversion changes the operator, if there is an odd orbital. -/
theorem C96_defect_identity : ∃ (h : HSym ℚ ℚ 3) (H : BMat h.orbs.get) (a b : Fin h.orbs.length), Valid h ∧ SamePlace h ∧
    h.sym.S[0]? = some 1 ∧ ∀ k, h.apply (fun _ => 1) k H 0 false a b = -H a b ∧ H a b ≠ 0 := by
  refine ⟨exEOE, onesE, ⟨0, by decide⟩, ⟨1, by decide⟩, exEOE_valid, exEOE_place, rfl, fun k => ⟨?_, onesE_ne 0 1⟩⟩
  have : exEOE.apply (fun _ => 1) 0 onesE 0 false ⟨0, by decide⟩ ⟨1, by decide⟩ ⟨0, by decide⟩ ⟨0, by decide⟩ = -1 := by
    decide +kernel
  ext ⟨i, hi⟩ ⟨j, hj⟩
  obtain rfl : i = 0 := Nat.lt_one_iff.1 hi
  obtain rfl : j = 0 := Nat.lt_one_iff.1 hj
  exact this

/-- **C96** (disagreement) With inversion the signs are put on the first rows instead of the rows of the odd orbitals: the block
of two even orbitals changes its sign. -/
theorem C96_defect_rows : ∃ (h : HSym ℚ ℚ 3) (H : BMat h.orbs.get) (a b : Fin h.orbs.length), Valid h ∧ SamePlace h ∧
    h.sym.inversion = true ∧ h.sym.S[0]? = some 1 ∧ paritySign (h.orbs.get a) = 1 ∧ paritySign (h.orbs.get b) = 1 ∧
    ∀ k, h.apply (fun _ => 1) k H 0 true a b = -H a b ∧ H a b ≠ 0 := by
  refine ⟨exEOE, onesE, ⟨0, by decide⟩, ⟨2, by decide⟩, exEOE_valid, exEOE_place, rfl, rfl, by decide +kernel, by decide +kernel,
    fun k => ⟨?_, onesE_ne 0 2⟩⟩
  have : exEOE.apply (fun _ => 1) 0 onesE 0 true ⟨0, by decide⟩ ⟨2, by decide⟩ ⟨0, by decide⟩ ⟨0, by decide⟩ = -1 := by
    decide +kernel
  ext ⟨i, hi⟩ ⟨j, hj⟩
  obtain rfl : i = 0 := Nat.lt_one_iff.1 hi
  obtain rfl : j = 0 := Nat.lt_one_iff.1 hj
  exact this

/-- **C96** (disagreement) The argument `inversion` has no effect. -/
theorem C96_defect_inversion (e : K → F) (h : HSym K F d) (k : Fin d → K) (H : BMat h.orbs.get) (q : ℕ) :
    h.apply e k H q true = h.apply e k H q false := rfl

/-- The quarter turns with one even orbital at the origin. -/
def exC4s : HSym ℚ ℚ 3 := appended exC4 1 (fun _ => 1) 1 0 "s"

theorem exC4s_valid : Valid exC4s := (C95_append_s exC4 exC4_ok.1 exC4_ok.2.1 0 "s").2.1

/-- An example: one point, four images. -/
example : (exC4s.realizeSymmetric (fun _ => 1) [(![1, 0, 0], fun _ _ => Matrix.of fun _ _ => 2)]).length = 4 := by
  decide +kernel

/-! ## `get_band_name` -/

/-- **C97** The name of band `i` of the `a`-th entry: the name of the entry, followed by the number of the band within the entry if
the entry has more than one. -/
theorem C97_band_name (h : HSym K F d) (a : Fin h.orbs.length) (i : ℕ) (hi : i < (h.orbs.get a).N) :
    h.getBandName ((((h.orbs.take a).map Orb.N).sum + i : ℕ) : ℤ) =
      .ok (if (h.orbs.get a).N = 1 then (h.orbs.get a).name else (h.orbs.get a).name ++ toString i) := by
  unfold HSym.getBandName
  obtain ⟨σ, l⟩ := h
  simp only at a hi ⊢
  induction l with
  | nil => exact a.elim0
  | cons o l ih =>
    obtain ⟨_ | a, ha⟩ := a
    · simp only [List.take_zero, List.map_nil, List.sum_nil, Nat.zero_add, List.map_cons, bandName]
      have hi' : i < o.N := hi
      rw [if_pos (by exact_mod_cast hi')]
      rfl
    · have := ih ⟨a, by simpa using ha⟩ hi
      simp only [List.take_succ_cons, List.map_cons, List.sum_cons, bandName]
      rw [if_neg (by omega)]
      refine Eq.trans (congrArg _ ?_) this
      simp only
      omega

/-- **C97** Numbers from the dimension on raise `IndexError`. -/
theorem C97_out_of_range (h : HSym K F d) (i : ℤ) (hi : (h.dim : ℤ) ≤ i) : h.getBandName i = .error .indexError := by
  unfold HSym.getBandName HSym.dim at *
  obtain ⟨σ, l⟩ := h
  simp only at hi ⊢
  induction l generalizing i with
  | nil => rfl
  | cons o l ih =>
    simp only [List.map_cons, List.sum_cons, Nat.cast_add] at hi
    simp only [List.map_cons, bandName]
    rw [if_neg (by omega)]
    exact ih (i - o.N) (by omega)

/-- **C97** (disagreement) Negative numbers are not rejected: the first entry answers, with the negative number in the name. -/
theorem C97_defect_negative (h : HSym K F d) (hne : h.orbs ≠ []) (i : ℤ) (hi : i < 0) :
    ∃ o ∈ h.orbs, h.getBandName i = .ok (if o.N = 1 then o.name else o.name ++ toString i) := by
  obtain ⟨σ, l⟩ := h
  cases l with
  | nil => exact absurd rfl hne
  | cons o l =>
    refine ⟨o, List.mem_cons_self, ?_⟩
    simp only [HSym.getBandName, List.map_cons, bandName]
    rw [if_pos (by omega)]

example : (appended (appended exC4 1 (fun _ => 1) 1 0 "s") 3 (fun s => s) 0 0 "p").getBandName 2 = .ok "p1" := by
  decide +kernel

end TB.HS
