import Mathlib.Tactic.Ring
import Mathlib.Tactic.Module
import Mathlib.Tactic.Abel
import Mathlib.Data.List.GetD
import Verif.Spec.Hamiltonian
import Verif.Props.Symmetrize

/-!
# Lemmas about `HamiltonianSymmetry.symmetrize`
-/

namespace TB.HS

open Spec Matrix TB.UR

set_option linter.unusedSectionVars false

variable {K : Type} [Field K] [LinearOrder K] [IsStrictOrderedRing K] {d m : ℕ}
variable {F : Type} [Field F] [StarRing F] [DecidableEq F]

/-- The position is listed, directly or by its negative. -/
def Found (ns : List (Fin d → K)) (x : Fin d → K) : Prop := x ∈ ns ∨ -x ∈ ns

instance (ns : List (Fin d → K)) (x : Fin d → K) : Decidable (Found ns x) := inferInstanceAs (Decidable (_ ∨ _))

theorem found_neg {ns : List (Fin d → K)} {x : Fin d → K} : Found ns (-x) ↔ Found ns x := by
  unfold Found; rw [neg_neg, or_comm]

theorem findIdx?_eq_idxOf {α : Type} [DecidableEq α] (l : List α) (x : α) :
    l.findIdx? (fun n => decide (n = x)) = if x ∈ l then some (l.idxOf x) else none := by
  induction l with
  | nil => simp
  | cons y l ih =>
    rw [List.findIdx?_cons, ih]
    by_cases h : y = x
    · simp [h]
    · have h' : x ≠ y := fun e => h e.symm
      by_cases hx : x ∈ l
      · simp [h, hx, List.idxOf_cons_ne _ h]
      · simp [h, h', hx]

theorem tryNeighbor_eq (ns : List (Fin d → K)) (x : Fin d → K) :
    tryNeighbor ns x = if x ∈ ns then some (ns.idxOf x, false) else if -x ∈ ns then some (ns.idxOf (-x), true) else none := by
  unfold tryNeighbor
  rw [findIdx?_eq_idxOf, findIdx?_eq_idxOf]
  by_cases h : x ∈ ns
  · simp [h]
  · by_cases h' : -x ∈ ns <;> simp [h, h']

theorem fetch_eq {o : Fin m → Orb K F d} (ns : List (Fin d → K)) (H : List (BMat o)) (x : Fin d → K) :
    fetch ns H x = if Found ns x then some (coeff ns H x) else none := by
  unfold fetch
  rw [tryNeighbor_eq]
  by_cases h : x ∈ ns
  · simp only [h, Found, true_or, if_true]
    congr 1
    funext a b
    simp [coeff, h]
  · by_cases h' : -x ∈ ns
    · simp only [h, h', Found, or_true, if_true, if_false]
      congr 1
      funext a b
      simp [coeff, conjT, h, h']
    · simp [h, h', Found]

theorem coeff_not_found {o : Fin m → Orb K F d} {ns : List (Fin d → K)} {H : List (BMat o)} {x : Fin d → K}
    (h : ¬ Found ns x) : coeff ns H x = 0 := by
  funext a b
  simp only [Found, not_or] at h
  simp [coeff, h.1, h.2]

/-- A family of matrices on all positions that is zero outside of the list and Hermitian, of which the list stores the
values, is the family of coefficients. -/
theorem coeff_of_values {o : Fin m → Orb K F d} {ns : List (Fin d → K)} (R : List (BMat o)) (G : (Fin d → K) → BMat o)
    (hR : ∀ i (hi : i < ns.length), R.getD i 0 = G ns[i]) (h0 : ∀ x, ¬ Found ns x → G x = 0)
    (hh : ∀ x a b, G (-x) a b = (G x b a).conjTranspose) (x : Fin d → K) : coeff ns R x = G x := by
  funext a b
  unfold coeff
  by_cases h : x ∈ ns
  · rw [if_pos h, hR _ (List.idxOf_lt_length_of_mem h), List.getElem_idxOf]
  · rw [if_neg h]
    by_cases h' : -x ∈ ns
    · rw [if_pos h', hR _ (List.idxOf_lt_length_of_mem h'), List.getElem_idxOf, hh, Matrix.conjTranspose_conjTranspose]
    · rw [if_neg h', h0 x (by simp [Found, h, h'])]
      rfl

/-- Hermitian if the matrix at the origin is. -/
theorem coeff_neg {o : Fin m → Orb K F d} {ns : List (Fin d → K)} (hns : HalfList ns) (H : List (BMat o))
    (h0 : 0 ∈ ns → ∀ a b, H.getD (ns.idxOf 0) 0 a b = (H.getD (ns.idxOf 0) 0 b a).conjTranspose) : HermitianCoeff ns H := by
  intro a b x
  unfold coeff
  by_cases h : x ∈ ns
  · by_cases h' : -x ∈ ns
    · have hx := hns.half x h h'
      subst hx
      simp only [neg_zero, h, if_true]
      exact h0 h a b
    · rw [if_neg h', neg_neg, if_pos h, if_pos h]
  · by_cases h' : -x ∈ ns
    · rw [if_pos h', if_neg h, if_pos h', Matrix.conjTranspose_conjTranspose]
    · rw [if_neg h', neg_neg, if_neg h, if_neg h, if_neg h', Matrix.conjTranspose_zero]

theorem hermOrigin_length {o : Fin m → Orb K F d} (ns : List (Fin d → K)) (H : List (BMat o)) :
    (hermOrigin ns H).length = H.length := by
  unfold hermOrigin; split <;> simp

theorem half_conj {α β : Type} (X : Matrix α β F) : ((2 : F)⁻¹ • X).conjTranspose = (2 : F)⁻¹ • X.conjTranspose := by
  ext i j
  simp

/-- After the first step: Hermitian coefficients, otherwise unchanged. -/
theorem coeff_hermOrigin {o : Fin m → Orb K F d} {ns : List (Fin d → K)} (H : List (BMat o))
    (hl : H.length = ns.length) (x : Fin d → K) (a b : Fin m) :
    coeff ns (hermOrigin ns H) x a b =
      if x = 0 then (2 : F)⁻¹ • (coeff ns H 0 a b + (coeff ns H 0 b a).conjTranspose) else coeff ns H x a b := by
  unfold hermOrigin
  by_cases h0 : (0 : Fin d → K) ∈ ns
  · rw [if_pos h0]
    have hi : ns.idxOf 0 < H.length := by rw [hl]; exact List.idxOf_lt_length_of_mem h0
    by_cases hx : x = 0
    · subst hx
      rw [if_pos rfl]
      simp only [coeff, h0, if_true, List.getD_eq_getElem?_getD, List.getElem?_set_self hi, Option.getD_some]
      rfl
    · rw [if_neg hx]
      have key : ∀ y, y ≠ 0 → y ∈ ns → ns.idxOf 0 ≠ ns.idxOf y := by
        intro y hy hyn e
        apply hy
        have h1 := List.getElem_idxOf (List.idxOf_lt_length_of_mem hyn)
        have h2 := List.getElem_idxOf (List.idxOf_lt_length_of_mem h0)
        rw [← h1]; simp only [← e]; exact h2
      unfold coeff
      by_cases h : x ∈ ns
      · simp only [h, if_true, List.getD_eq_getElem?_getD, List.getElem?_set_ne (key x hx h)]
      · by_cases h' : -x ∈ ns
        · simp only [h, h', if_true, if_false, List.getD_eq_getElem?_getD, List.getElem?_set_ne (key (-x) (by simpa using hx) h')]
        · simp [h, h']
  · rw [if_neg h0]
    split_ifs with hx
    · subst hx
      simp [coeff, h0]
    · rfl

theorem hermOrigin_hermitian [CharZero F] {o : Fin m → Orb K F d} {ns : List (Fin d → K)} (hns : HalfList ns) (H : List (BMat o))
    (hl : H.length = ns.length) : HermitianCoeff ns (hermOrigin ns H) := by
  refine coeff_neg hns _ fun h0 a b => ?_
  have e : ∀ a b, (hermOrigin ns H).getD (ns.idxOf 0) 0 a b = coeff ns (hermOrigin ns H) 0 a b := by
    intro a b; simp [coeff, h0]
  rw [e, e, coeff_hermOrigin H hl, coeff_hermOrigin H hl, if_pos rfl, if_pos rfl, half_conj,
    Matrix.conjTranspose_add, Matrix.conjTranspose_conjTranspose, add_comm]

/-! ### The inversion -/

theorem paritySign_eq (o : Orb K F d) : parity o = paritySign o := by
  unfold parity paritySign
  rcases Nat.eq_zero_or_pos o.rep.invSplit with h | h
  · simp [h]
  · rw [if_pos h, if_neg (by omega)]

theorem paritySign_mul_self (o : Orb K F d) : paritySign o * paritySign o = 1 := by
  unfold paritySign; split_ifs <;> simp

theorem paritySign_star (o : Orb K F d) : star (paritySign o) = paritySign o := by
  unfold paritySign; split_ifs <;> simp

theorem moved_neg_one (o : Fin m → Orb K F d) (a b : Fin m) (x : Fin d → K) :
    moved o (-1) a b x = -x - (2 : K) • ((o b).pos - (o a).pos) := by
  unfold moved
  rw [Matrix.neg_mulVec, Matrix.one_mulVec]
  module

theorem moved_neg (o : Fin m → Orb K F d) (s : Mat K d) (a b : Fin m) (x : Fin d → K) :
    moved o s a b (-x) = -moved o s b a x := by
  unfold moved
  have : -x + ((o b).pos - (o a).pos) = -(x + ((o a).pos - (o b).pos)) := by abel
  rw [this, Matrix.mulVec_neg]
  abel

theorem moved_moved (o : Fin m → Orb K F d) (s t : Mat K d) (a b : Fin m) (x : Fin d → K) :
    moved o s a b (moved o t a b x) = moved o (s * t) a b x := by
  unfold moved
  rw [sub_add_cancel, Matrix.mulVec_mulVec]

theorem moved_one (o : Fin m → Orb K F d) (a b : Fin m) (x : Fin d → K) : moved o 1 a b x = x := by
  unfold moved
  rw [Matrix.one_mulVec, add_sub_cancel_right]

/-- The values after the inversion step. -/
def invVal (o : Fin m → Orb K F d) (ns : List (Fin d → K)) (C : (Fin d → K) → BMat o) (x : Fin d → K) : BMat o := fun a b =>
  if Found ns x ∧ Found ns (moved o (-1) a b x) then
    (2 : F)⁻¹ • (C x a b + (paritySign (o a) * paritySign (o b)) • C (moved o (-1) a b x) a b) else 0

theorem getD_zipIdx_map {α β : Type} (l : List α) (f : α × ℕ → β) (c : β) (i : ℕ) (hi : i < l.length) :
    (l.zipIdx.map f).getD i c = f (l[i], i) := by
  rw [List.getD_eq_getElem _ _ (by simpa using hi)]
  simp

theorem invVal_neg {o : Fin m → Orb K F d} {ns : List (Fin d → K)} {C : (Fin d → K) → BMat o}
    (hC : ∀ x a b, C (-x) a b = (C x b a).conjTranspose) (x : Fin d → K) (a b : Fin m) :
    invVal o ns C (-x) a b = (invVal o ns C x b a).conjTranspose := by
  unfold invVal
  simp only [moved_neg, found_neg]
  rw [apply_ite Matrix.conjTranspose, Matrix.conjTranspose_zero]
  split_ifs
  · rw [half_conj, Matrix.conjTranspose_add, Matrix.conjTranspose_smul, star_mul', paritySign_star, paritySign_star,
      hC, hC, mul_comm (paritySign (o a))]
  · rfl

theorem coeff_invStep [CharZero F] {o : Fin m → Orb K F d} {ns : List (Fin d → K)} (hns : HalfList ns) (H : List (BMat o))
    (hH : HermitianCoeff ns H) (x : Fin d → K) : coeff ns (invStep o ns H) x = invVal o ns (coeff ns H) x := by
  refine coeff_of_values _ _ ?_ ?_ (fun x a b => invVal_neg (fun x a b => hH a b x) x a b) x
  · intro i hi
    unfold invStep
    rw [getD_zipIdx_map _ _ _ _ hi]
    have hmem : ns[i] ∈ ns := List.getElem_mem hi
    have hHi : ∀ a b, H.getD i 0 a b = coeff ns H ns[i] a b := by
      intro a b
      simp only [coeff, hmem, if_true, hns.nodup.idxOf_getElem i hi]
    funext a b
    have hf : Found ns ns[i] := Or.inl hmem
    simp only [Pi.smul_apply, Pi.add_apply, fetch_eq, ← moved_neg_one, invVal, hf, true_and]
    by_cases h : Found ns (moved o (-1) a b ns[i])
    · simp only [h, if_true, hHi, paritySign_eq]
    · simp only [h, if_false, hHi]
      rw [add_neg_cancel, smul_zero]
  · intro x hx
    funext a b
    simp [invVal, hx]

/-! ### The mean over the operations -/

/-- The operations form a group and the matrices (as a function of the operation) a unitary representation. -/
structure Grp (S : List (Mat K d)) (o : Fin m → Orb K F d) (u : (a : Fin m) → Mat K d → Mat F (o a).N) : Prop where
  nodup : S.Nodup
  one : 1 ∈ S
  mul : ∀ s ∈ S, ∀ t ∈ S, s * t ∈ S
  det : ∀ s ∈ S, IsUnit s.det
  u_one : ∀ a, u a 1 = 1
  u_mul : ∀ a, ∀ s ∈ S, ∀ t ∈ S, u a (s * t) = u a s * u a t
  u_unitary : ∀ a, ∀ s ∈ S, u a s * (u a s).conjTranspose = 1
  u_eq : ∀ a k (hk : k < S.length), (o a).rep.U.getD k 0 = u a S[k]

theorem perm_mul_right {S : List (Mat K d)} (hn : S.Nodup) (hm : ∀ s ∈ S, ∀ t ∈ S, s * t ∈ S) {q : Mat K d} (hq : q ∈ S)
    (hd : IsUnit q.det) : (S.map fun s => s * q).Perm S := by
  have hinj : Function.Injective fun s : Mat K d => s * q := by
    intro a b hab
    have := congrArg (· * q⁻¹) hab
    simpa [mul_assoc, Matrix.mul_nonsing_inv _ hd] using this
  refine ((hn.map hinj).subperm ?_).perm_of_length_le (by simp)
  intro x hx
  obtain ⟨p, hp, rfl⟩ := List.mem_map.1 hx
  exact hm p hp q hq

theorem rect_sum_mul {α ι₁ ι₂ : Type} [Fintype ι₁] [Fintype ι₂] (l : List α) (f : α → Matrix ι₁ ι₂ F)
    (A : Matrix ι₁ ι₁ F) (B : Matrix ι₂ ι₂ F) : (l.map fun x => A * f x * B).sum = A * (l.map f).sum * B := by
  induction l with
  | nil => simp
  | cons x l ih => simp [ih, Matrix.mul_add, Matrix.add_mul]

theorem rect_sum_conj {α ι₁ ι₂ : Type} (l : List α) (f : α → Matrix ι₁ ι₂ F) :
    ((l.map f).sum).conjTranspose = (l.map fun x => (f x).conjTranspose).sum := by
  induction l with
  | nil => simp
  | cons x l ih => simp [ih]

/-- The values after the mean. -/
def meanVal (S : List (Mat K d)) (o : Fin m → Orb K F d) (u : (a : Fin m) → Mat K d → Mat F (o a).N) (ns : List (Fin d → K))
    (C : (Fin d → K) → BMat o) (x : Fin d → K) : BMat o := fun a b =>
  if ∀ s ∈ S, Found ns (moved o s a b x) then
    (S.length : F)⁻¹ • (S.map fun s => (u a s).conjTranspose * C (moved o s a b x) a b * u b s).sum else 0

theorem accBlock_eq (o : Fin m → Orb K F d) (ns : List (Fin d → K)) (H : List (BMat o)) (r : Fin d → K) (a b : Fin m)
    (L : List (Mat K d × ℕ)) (p : Matrix (Fin (o a).N) (Fin (o b).N) F) :
    accBlock o ns H r a b L p = if ∀ e ∈ L, Found ns (moved o e.1 a b r) then
      p + (L.map fun e => ((o a).rep.U.getD e.2 0).conjTranspose * coeff ns H (moved o e.1 a b r) a b *
        (o b).rep.U.getD e.2 0).sum else 0 := by
  induction L generalizing p with
  | nil => simp [accBlock]
  | cons e L ih =>
    obtain ⟨s, k⟩ := e
    have hm : s.mulVec (r + (o b).pos - (o a).pos) - (o b).pos + (o a).pos = moved o s a b r := by
      unfold moved
      rw [add_sub_assoc]; abel
    unfold accBlock
    rw [hm, fetch_eq]
    by_cases h : Found ns (moved o s a b r)
    · simp only [h, if_true]
      rw [ih]
      simp only [List.forall_mem_cons, h, true_and, List.map_cons, List.sum_cons, add_assoc]
    · simp [h]

theorem zipIdx_forall {α : Type} (l : List α) (P : α → Prop) : (∀ e ∈ l.zipIdx, P e.1) ↔ ∀ s ∈ l, P s := by
  constructor
  · intro h s hs
    obtain ⟨i, hi, rfl⟩ := List.getElem_of_mem hs
    exact h (l[i], i) (List.mem_zipIdx_iff_getElem?.2 (by simp [hi]))
  · intro h e he
    exact h _ (List.fst_mem_of_mem_zipIdx he)

theorem zipIdx_map_congr {α β : Type} (l : List α) (f : α × ℕ → β) (g : α → β)
    (h : ∀ k (hk : k < l.length), f (l[k], k) = g l[k]) : l.zipIdx.map f = l.map g := by
  refine List.ext_getElem (by simp) fun i h1 h2 => ?_
  simp only [List.getElem_map, List.getElem_zipIdx, Nat.zero_add]
  exact h i (by simpa using h2)

theorem meanVal_neg {S : List (Mat K d)} {o : Fin m → Orb K F d} {u : (a : Fin m) → Mat K d → Mat F (o a).N}
    {ns : List (Fin d → K)} {C : (Fin d → K) → BMat o}
    (hC : ∀ x a b, C (-x) a b = (C x b a).conjTranspose) (x : Fin d → K) (a b : Fin m) :
    meanVal S o u ns C (-x) a b = (meanVal S o u ns C x b a).conjTranspose := by
  unfold meanVal
  simp only [moved_neg, found_neg]
  rw [apply_ite Matrix.conjTranspose, Matrix.conjTranspose_zero]
  split_ifs
  · rw [Matrix.conjTranspose_smul, rect_sum_conj]
    simp only [hC, Matrix.conjTranspose_mul, Matrix.conjTranspose_conjTranspose, star_inv₀, star_natCast, Matrix.mul_assoc]
  · rfl

theorem coeff_meanStep {S : List (Mat K d)} {o : Fin m → Orb K F d} {u : (a : Fin m) → Mat K d → Mat F (o a).N}
    (hg : Grp S o u) {ns : List (Fin d → K)} (H : List (BMat o)) (hH : HermitianCoeff ns H) (x : Fin d → K) :
    coeff ns (meanStep S o ns H) x = meanVal S o u ns (coeff ns H) x := by
  refine coeff_of_values _ _ ?_ ?_ (fun x a b => meanVal_neg (fun x a b => hH a b x) x a b) x
  · intro i hi
    unfold meanStep
    rw [getD_map_lt _ _ _ _ hi]
    funext a b
    simp only [Pi.smul_apply, accBlock_eq, meanVal, zero_add]
    simp only [zipIdx_forall S (fun s => Found ns (moved o s a b ns[i]))]
    rw [zipIdx_map_congr S _ (fun s => (u a s).conjTranspose * coeff ns H (moved o s a b ns[i]) a b * u b s)
      (fun k hk => by rw [hg.u_eq a k hk, hg.u_eq b k hk])]
    split_ifs
    · rfl
    · rw [smul_zero]
  · intro x hx
    funext a b
    unfold meanVal
    rw [if_neg]
    · rfl
    · intro h
      have := h 1 hg.one
      rw [moved_one] at this
      exact hx this

/-- The mean is covariant. -/
theorem meanVal_covariant {S : List (Mat K d)} {o : Fin m → Orb K F d} {u : (a : Fin m) → Mat K d → Mat F (o a).N}
    (hg : Grp S o u) (ns : List (Fin d → K)) (C : (Fin d → K) → BMat o) {q : Mat K d} (hq : q ∈ S) (x : Fin d → K)
    (a b : Fin m) : meanVal S o u ns C (moved o q a b x) a b = u a q * meanVal S o u ns C x a b * (u b q).conjTranspose := by
  have hp := perm_mul_right hg.nodup hg.mul hq (hg.det q hq)
  have hcond : (∀ s ∈ S, Found ns (moved o s a b (moved o q a b x))) ↔ ∀ s ∈ S, Found ns (moved o s a b x) := by
    simp only [moved_moved]
    constructor
    · intro h s hs
      obtain ⟨t, ht, rfl⟩ := List.mem_map.1 (hp.symm.subset hs)
      exact h t ht
    · exact fun h s hs => h _ (hg.mul s hs q hq)
  unfold meanVal
  simp only [hcond]
  split_ifs
  · have h1 : (S.map fun s => (u a s).conjTranspose * C (moved o s a b x) a b * u b s).sum =
        (u a q).conjTranspose * (S.map fun s => (u a s).conjTranspose * C (moved o s a b (moved o q a b x)) a b * u b s).sum *
          u b q := by
      rw [← (hp.map fun s => (u a s).conjTranspose * C (moved o s a b x) a b * u b s).sum_eq, ← rect_sum_mul, List.map_map]
      refine congrArg List.sum (List.map_congr_left fun s hs => ?_)
      simp only [Function.comp, hg.u_mul _ s hs q hq, moved_moved, Matrix.conjTranspose_mul, Matrix.mul_assoc]
    have ha := hg.u_unitary a q hq
    have hb := hg.u_unitary b q hq
    rw [h1, Matrix.mul_smul, Matrix.smul_mul]
    congr 1
    rw [← Matrix.mul_assoc, ← Matrix.mul_assoc, ha, Matrix.one_mul, Matrix.mul_assoc, hb, Matrix.mul_one]
  · simp

end TB.HS
