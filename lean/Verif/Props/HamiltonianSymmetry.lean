import Verif.Lemmas.HamiltonianSymmetry

/-!
# C92: `HamiltonianSymmetry.symmetrize`
-/

namespace TB.HS

open Spec Matrix TB.UR

set_option linter.unusedSectionVars false

variable {K : Type} [Field K] [LinearOrder K] [IsStrictOrderedRing K] {d m : ℕ}
variable {F : Type} [Field F] [StarRing F] [DecidableEq F]

/-- The matrix of an operation. -/
def matOf (h : HSym K F d) (a : Fin h.orbs.length) (s : Mat K d) : Mat F (h.orbs.get a).N :=
  (h.orbs.get a).rep.U.getD (h.sym.S.idxOf s) 0

theorem mem_zip_iff {α β : Type} [DecidableEq α] {l : List α} {l' : List β} (hl : l.length = l'.length) (hn : l.Nodup) (c : β)
    {p : α × β} : p ∈ l.zip l' ↔ p.1 ∈ l ∧ p.2 = l'.getD (l.idxOf p.1) c := by
  constructor
  · intro h
    obtain ⟨i, hi, rfl⟩ := List.getElem_of_mem h
    have hi1 : i < l.length := by simp at hi; omega
    have hi2 : i < l'.length := by omega
    simp only [List.getElem_zip, List.getElem_mem, hn.idxOf_getElem i hi1, true_and]
    rw [List.getD_eq_getElem _ _ hi2]
  · rintro ⟨h1, h2⟩
    have hi := List.idxOf_lt_length_of_mem h1
    have hi2 : l.idxOf p.1 < l'.length := by omega
    rw [List.getD_eq_getElem _ _ hi2] at h2
    have : p = (l.zip l')[l.idxOf p.1]'(by simp; omega) := by
      rw [List.getElem_zip, List.getElem_idxOf]
      exact Prod.ext rfl h2
    rw [this]
    exact List.getElem_mem _

theorem grp_of_valid {h : HSym K F d} (hv : Valid h) (hm : ∀ s ∈ h.sym.S, ∀ t ∈ h.sym.S, s * t ∈ h.sym.S)
    (hn : h.sym.S.Nodup) : Grp h.sym.S h.orbs.get (matOf h) := by
  have hz : ∀ a, ∀ p : Mat K d × Mat F (h.orbs.get a).N, p ∈ h.sym.S.zip (h.orbs.get a).rep.U ↔
      p.1 ∈ h.sym.S ∧ p.2 = matOf h a p.1 := by
    intro a p
    obtain ⟨h1, -, h3, -⟩ := hv.rep _ (List.get_mem h.orbs a)
    exact mem_zip_iff (by rw [← h3]; exact h1.len) hn 0
  have hone := hv.sym.one_mem
  refine ⟨hn, hone, hm, fun s hs => isUnit_det_of_abs (hv.sym.det s hs), ?_, ?_, ?_, ?_⟩
  · intro a
    obtain ⟨h1, -, h3, -⟩ := hv.rep _ (List.get_mem h.orbs a)
    have := h1.one
    rw [h3] at this
    exact (((hz a _).1 this).2).symm
  · intro a s hs t ht
    obtain ⟨h1, -, h3, -⟩ := hv.rep _ (List.get_mem h.orbs a)
    have := h1.mul
    rw [h3] at this
    exact (((hz a _).1 (this (s, matOf h a s) ((hz a _).2 ⟨hs, rfl⟩) (t, matOf h a t) ((hz a _).2 ⟨ht, rfl⟩))).2).symm
  · intro a s hs
    obtain ⟨-, h2, h3, -⟩ := hv.rep _ (List.get_mem h.orbs a)
    exact h2 _ (List.of_mem_zip ((hz a (s, matOf h a s)).2 ⟨hs, rfl⟩)).2
  · intro a k hk
    simp only [matOf, hn.idxOf_getElem k hk]

/-- The operations without repetition and closed under products (this follows from `Valid` as soon as one representation has
been appended). -/
def GroupS (h : HSym K F d) : Prop := h.sym.S.Nodup ∧ ∀ s ∈ h.sym.S, ∀ t ∈ h.sym.S, s * t ∈ h.sym.S

theorem groupS_of_valid {h : HSym K F d} (hv : Valid h) (hne : h.orbs ≠ []) : GroupS h := by
  obtain ⟨o, ho⟩ := List.exists_mem_of_ne_nil _ hne
  obtain ⟨h1, -, h3, -⟩ := hv.rep o ho
  refine ⟨by rw [← h3]; exact h1.nodup, fun s hs t ht => ?_⟩
  have hz : ∀ s ∈ h.sym.S, ∃ v, (s, v) ∈ o.rep.sym.S.zip o.rep.U := by
    intro s hs
    rw [← h3] at hs
    exact ⟨o.rep.U.getD (o.rep.sym.S.idxOf s) 0, (mem_zip_iff h1.len h1.nodup 0).2 ⟨hs, rfl⟩⟩
  obtain ⟨v, hv'⟩ := hz s hs
  obtain ⟨w, hw⟩ := hz t ht
  have := (List.of_mem_zip (h1.mul _ hv' _ hw)).1
  rwa [h3] at this

theorem covariant_iff {h : HSym K F d} (hg : Grp h.sym.S h.orbs.get (matOf h)) (ns : List (Fin d → K))
    (R : List (BMat h.orbs.get)) : Spec.Covariant h ns R ↔ ∀ q ∈ h.sym.S, ∀ a b x,
      coeff ns R (moved h.orbs.get q a b x) a b = matOf h a q * coeff ns R x a b * (matOf h b q).conjTranspose := by
  constructor
  · intro hc q hq a b x
    obtain ⟨k, hk, rfl⟩ := List.getElem_of_mem hq
    rw [hc k hk, hg.u_eq a k hk, hg.u_eq b k hk]
  · intro hc k hk a b x
    rw [hc _ (List.getElem_mem hk), hg.u_eq a k hk, hg.u_eq b k hk]

/-! ### Outcome -/

/-- **C92** `symmetrize` returns one matrix per position, for a list of matrices of the same nonzero length, and otherwise
raises `AssertionError` (different lengths) or `IndexError` (no positions). -/
theorem C92_returns (h : HSym K F d) (H : List (BMat h.orbs.get)) (ns : List (Fin d → K)) :
    (ns.length = H.length ∧ ns ≠ [] → ∃ R, h.symmetrize H ns = .ok R ∧ R.length = ns.length) ∧
    (ns.length ≠ H.length → h.symmetrize H ns = .error .assertionError) ∧
    (ns = [] → H = [] → h.symmetrize H ns = .error .indexError) := by
  unfold HSym.symmetrize
  refine ⟨fun ⟨h1, h2⟩ => ?_, fun h1 => ?_, fun h1 h2 => ?_⟩
  · simp only [h1, ne_eq, not_true_eq_false, if_false, List.isEmpty_iff, h2]
    exact ⟨_, rfl, by simp [meanStep, h1]⟩
  · rw [if_pos h1]
  · subst h1 h2
    simp

/-- The result, described by its coefficients. -/
theorem symmetrize_coeff [CharZero F] {h : HSym K F d} (hv : Valid h) (hS : GroupS h) {ns : List (Fin d → K)} (hns : HalfList ns)
    {H R : List (BMat h.orbs.get)} (hr : h.symmetrize H ns = .ok R) :
    H.length = ns.length ∧ R.length = ns.length ∧ ∃ C : (Fin d → K) → BMat h.orbs.get,
      (∀ x a b, C (-x) a b = (C x b a).conjTranspose) ∧
      (C = if h.sym.inversion then invVal h.orbs.get ns (coeff ns (hermOrigin ns H)) else coeff ns (hermOrigin ns H)) ∧
      ∀ x, coeff ns R x = meanVal h.sym.S h.orbs.get (matOf h) ns C x := by
  have hg := grp_of_valid hv hS.2 hS.1
  unfold HSym.symmetrize at hr
  split_ifs at hr with h1 h2 h3
  all_goals
    simp only [ne_eq, not_not] at h1
    cases hr
  · have hh := hermOrigin_hermitian hns H h1.symm
    have hh2 : HermitianCoeff ns (invStep h.orbs.get ns (hermOrigin ns H)) := by
      intro a b x
      rw [coeff_invStep hns _ hh, coeff_invStep hns _ hh]
      exact invVal_neg (fun x a b => hh a b x) x a b
    refine ⟨h1.symm, by simp [meanStep], _, fun x a b => hh2 a b x, ?_, fun x => coeff_meanStep hg _ hh2 x⟩
    funext x
    rw [if_pos h3, coeff_invStep hns _ hh]
  · have hh := hermOrigin_hermitian hns H h1.symm
    exact ⟨h1.symm, by simp [meanStep], _, fun x a b => hh a b x, by rw [if_neg h3], fun x => coeff_meanStep hg _ hh x⟩

/-! ### Symmetry of the result -/

/-- **C92** The result has the rotational symmetry, at listed and at missing positions. -/
theorem C92_covariant [CharZero F] (h : HSym K F d) (hv : Valid h) (ns : List (Fin d → K)) (hns : HalfList ns)
    (H R : List (BMat h.orbs.get)) (hr : h.symmetrize H ns = .ok R) : Spec.Covariant h ns R := by
  intro k hk a b x
  have hne : h.orbs ≠ [] := fun e => by have := a.2; simp [e] at this
  have hS := groupS_of_valid hv hne
  have hg := grp_of_valid hv hS.2 hS.1
  obtain ⟨-, -, C, hC, -, hR⟩ := symmetrize_coeff hv hS hns hr
  rw [hR, hR, meanVal_covariant hg ns C (List.getElem_mem hk), hg.u_eq a k hk, hg.u_eq b k hk]

/-- **C92** The result is Hermitian. -/
theorem C92_hermitian [CharZero F] (h : HSym K F d) (hv : Valid h) (ns : List (Fin d → K)) (hns : HalfList ns)
    (H R : List (BMat h.orbs.get)) (hr : h.symmetrize H ns = .ok R) : HermitianCoeff ns R := by
  intro a b x
  have hne : h.orbs ≠ [] := fun e => by have := a.2; simp [e] at this
  obtain ⟨-, -, C, hC, -, hR⟩ := symmetrize_coeff hv (groupS_of_valid hv hne) hns hr
  rw [hR, hR, meanVal_neg hC]

/-- Whenever all images of a position under the operations `S` are listed (or their negatives), then so are all images under
the operations `-S`. -/
def InvClosed (h : HSym K F d) (ns : List (Fin d → K)) : Prop :=
  ∀ (a b : Fin h.orbs.length) (x : Fin d → K),
    (∀ s ∈ h.sym.S, moved h.orbs.get s a b x ∈ ns ∨ -moved h.orbs.get s a b x ∈ ns) →
    ∀ s ∈ h.sym.S, moved h.orbs.get (-s) a b x ∈ ns ∨ -moved h.orbs.get (-s) a b x ∈ ns

theorem moved_comm (o : Fin m → Orb K F d) (s : Mat K d) (a b : Fin m) (x : Fin d → K) :
    moved o s a b (moved o (-1) a b x) = moved o (-s) a b x ∧ moved o (-1) a b (moved o s a b x) = moved o (-s) a b x := by
  rw [moved_moved, moved_moved]; simp

theorem invVal_inv [CharZero F] (o : Fin m → Orb K F d) (ns : List (Fin d → K)) (C : (Fin d → K) → BMat o) (x : Fin d → K)
    (a b : Fin m) : invVal o ns C (moved o (-1) a b x) a b = (paritySign (o a) * paritySign (o b)) • invVal o ns C x a b := by
  have h2 : moved o (-1) a b (moved o (-1) a b x) = x := by rw [moved_moved]; simp [moved_one]
  unfold invVal
  rw [h2]
  by_cases h : Found ns x ∧ Found ns (moved o (-1) a b x)
  · have : paritySign (o a) * paritySign (o b) * (paritySign (o a) * paritySign (o b)) = (1 : F) := by
      have ha := paritySign_mul_self (o a)
      have hb := paritySign_mul_self (o b)
      calc _ = (paritySign (o a) * paritySign (o a)) * (paritySign (o b) * paritySign (o b)) := by ring
        _ = 1 := by rw [ha, hb, one_mul]
    rw [if_pos h, if_pos h.symm, smul_comm _ (2 : F)⁻¹, smul_add (_ * _), smul_smul (_ * _), this, one_smul, add_comm]
  · rw [if_neg h, if_neg (fun h' => h h'.symm), smul_zero]

/-- **C92** With inversion the result has the inversion symmetry, if the list of positions is closed as described. -/
theorem C92_inversion [CharZero F] (h : HSym K F d) (hv : Valid h) (hi : h.sym.inversion = true) (ns : List (Fin d → K))
    (hns : HalfList ns) (hcl : InvClosed h ns) (H R : List (BMat h.orbs.get)) (hr : h.symmetrize H ns = .ok R) :
    InvCovariant h ns R := by
  intro a b x
  have hne : h.orbs ≠ [] := fun e => by have := a.2; simp [e] at this
  obtain ⟨-, -, C, hC, hCi, hR⟩ := symmetrize_coeff hv (groupS_of_valid hv hne) hns hr
  rw [hR, hR]
  rw [hi, if_pos rfl] at hCi
  have hcond : (∀ s ∈ h.sym.S, Found ns (moved h.orbs.get s a b (moved h.orbs.get (-1) a b x))) ↔
      ∀ s ∈ h.sym.S, Found ns (moved h.orbs.get s a b x) := by
    constructor
    · intro h1 s hs
      have := hcl a b (moved h.orbs.get (-1) a b x) h1 s hs
      rwa [moved_moved, neg_mul_neg, mul_one] at this
    · intro h1 s hs
      rw [(moved_comm _ s a b x).1]
      exact hcl a b x h1 s hs
  unfold meanVal
  simp only [hcond]
  split_ifs
  · rw [smul_comm]
    congr 1
    rw [List.smul_sum, List.map_map]
    refine congrArg List.sum (List.map_congr_left fun s _ => ?_)
    have := (moved_comm h.orbs.get s a b x)
    rw [Function.comp, this.1, ← this.2, hCi, invVal_inv, Matrix.mul_smul, Matrix.smul_mul]
  · rw [smul_zero]

/-- If all orbitals are at the same place, every list is closed as needed in `C92_inversion`. -/
theorem C92_same_place (h : HSym K F d) (ns : List (Fin d → K)) (hp : ∀ o ∈ h.orbs, ∀ o' ∈ h.orbs, o.pos = o'.pos) :
    InvClosed h ns := by
  intro a b x hx s hs
  have e : (h.orbs.get a).pos = (h.orbs.get b).pos := hp _ (List.get_mem _ _) _ (List.get_mem _ _)
  have := hx s hs
  unfold moved at this ⊢
  rw [e, sub_self, add_zero, sub_zero] at this ⊢
  rw [Matrix.neg_mulVec, neg_neg]
  exact this.symm

/-! ### Fixed points, projection -/

/-- **C92** A list that has the symmetry already is returned unchanged. -/
theorem C92_fixed [CharZero F] (h : HSym K F d) (hv : Valid h) (ns : List (Fin d → K)) (hns : HalfList ns)
    (H R : List (BMat h.orbs.get)) (hr : h.symmetrize H ns = .ok R) (hH : HermitianCoeff ns H) (hc : Spec.Covariant h ns H)
    (hic : h.sym.inversion = true → InvCovariant h ns H) : R = H := by
  by_cases hne : h.orbs = []
  · have : ∀ X Y : BMat h.orbs.get, X = Y := by
      intro X Y
      funext a
      have := a.2
      simp [hne] at this
    have hl : H.length = R.length := by
      by_cases h1 : ns.length = H.length
      · by_cases h2 : ns = []
        · rw [(C92_returns h H ns).2.2 h2 (by rw [h2] at h1; exact List.eq_nil_of_length_eq_zero h1.symm)] at hr
          cases hr
        · obtain ⟨R', h3, h4⟩ := (C92_returns h H ns).1 ⟨h1, h2⟩
          rw [h3] at hr; cases hr
          omega
      · rw [(C92_returns h H ns).2.1 h1] at hr
        cases hr
    exact List.ext_getElem hl.symm fun i _ _ => this _ _
  have hS := groupS_of_valid hv hne
  have hg := grp_of_valid hv hS.2 hS.1
  obtain ⟨hl, hl', C, -, hCi, hR⟩ := symmetrize_coeff hv hS hns hr
  rw [covariant_iff hg] at hc
  have h0 : ∀ x, coeff ns (hermOrigin ns H) x = coeff ns H x := by
    intro x
    funext a b
    rw [coeff_hermOrigin H hl]
    split_ifs with hx
    · subst hx
      have := hH a b 0
      rw [neg_zero] at this
      rw [← this, ← two_smul F (coeff ns H 0 a b), smul_smul, inv_mul_cancel₀ two_ne_zero, one_smul]
    · rfl
  have hnf : ∀ x, ¬ Found ns x → ∀ a b, coeff ns H x a b = 0 := by
    intro x hx a b
    rw [coeff_not_found hx]; rfl
  have h1 : C = coeff ns H := by
    rw [hCi]
    funext x a b
    split_ifs with hi
    · have hi' := hic hi a b x
      unfold invVal
      rw [h0, h0]
      split_ifs with hf
      · rw [hi', smul_smul]
        have : paritySign (h.orbs.get a) * paritySign (h.orbs.get b) * (paritySign (h.orbs.get a) * paritySign (h.orbs.get b)) = (1 : F) := by
          have ha := paritySign_mul_self (h.orbs.get a)
          have hb := paritySign_mul_self (h.orbs.get b)
          calc _ = (paritySign (h.orbs.get a) * paritySign (h.orbs.get a)) * (paritySign (h.orbs.get b) * paritySign (h.orbs.get b)) := by ring
            _ = 1 := by rw [ha, hb, one_mul]
        rw [this, one_smul, ← two_smul F (coeff ns H x a b), smul_smul, inv_mul_cancel₀ two_ne_zero, one_smul]
      · by_cases hx : Found ns x
        · have hx' : ¬ Found ns (moved h.orbs.get (-1) a b x) := fun h' => hf ⟨hx, h'⟩
          rw [hnf _ hx' a b] at hi'
          have hne0 : paritySign (h.orbs.get a) * paritySign (h.orbs.get b) ≠ (0 : F) := by
            unfold paritySign; split_ifs <;> simp
          exact ((smul_eq_zero.1 hi'.symm).resolve_left hne0).symm
        · exact (hnf x hx a b).symm
    · rw [h0]
  have h2 : ∀ x, coeff ns R x = coeff ns H x := by
    intro x
    rw [hR, h1]
    funext a b
    unfold meanVal
    split_ifs with hf
    · have : (h.sym.S.map fun s => (matOf h a s).conjTranspose * coeff ns H (moved h.orbs.get s a b x) a b * matOf h b s) =
          h.sym.S.map fun _ => coeff ns H x a b := by
        refine List.map_congr_left fun s hs => ?_
        have ha := mul_eq_one_comm.1 (hg.u_unitary a s hs)
        have hb := mul_eq_one_comm.1 (hg.u_unitary b s hs)
        rw [hc s hs, ← Matrix.mul_assoc, ← Matrix.mul_assoc, ha, Matrix.one_mul, Matrix.mul_assoc, hb, Matrix.mul_one]
      rw [this, List.map_const', List.sum_replicate, ← Nat.cast_smul_eq_nsmul F, smul_smul, inv_mul_cancel₀, one_smul]
      exact Nat.cast_ne_zero.2 (List.length_pos_of_mem hg.one).ne'
    · push Not at hf
      obtain ⟨s, hs, hf⟩ := hf
      have h3 := hc s hs a b x
      rw [hnf _ hf a b] at h3
      have ha := mul_eq_one_comm.1 (hg.u_unitary a s hs)
      have hb := hg.u_unitary b s hs
      have hb' := mul_eq_one_comm.1 hb
      have h4 : coeff ns H x a b = (matOf h a s).conjTranspose * (matOf h a s * coeff ns H x a b * (matOf h b s).conjTranspose) *
          matOf h b s := by
        rw [Matrix.mul_assoc (matOf h a s), ← Matrix.mul_assoc, ha, Matrix.one_mul, Matrix.mul_assoc, hb', Matrix.mul_one]
      rw [h4, ← h3]
      simp
  refine List.ext_getElem (by omega) fun i hi hi' => ?_
  have h3 := h2 (ns[i]'(by omega))
  funext a b
  have h4 := congrFun (congrFun h3 a) b
  have hm : ns[i]'(by omega) ∈ ns := List.getElem_mem _
  simp only [coeff, hm, if_true, hns.nodup.idxOf_getElem i (by omega)] at h4
  rwa [List.getD_eq_getElem _ _ hi, List.getD_eq_getElem _ _ hi'] at h4

/-- **C92** Symmetrising twice is the same as symmetrising once (with closed positions in the case with inversion). -/
theorem C92_idempotent [CharZero F] (h : HSym K F d) (hv : Valid h) (ns : List (Fin d → K)) (hns : HalfList ns)
    (hcl : h.sym.inversion = true → InvClosed h ns) (H R : List (BMat h.orbs.get)) (hr : h.symmetrize H ns = .ok R) :
    h.symmetrize R ns = .ok R := by
  have hl : R.length = ns.length ∧ ns ≠ [] := by
    by_cases h1 : ns.length = H.length
    · by_cases h2 : ns = []
      · rw [(C92_returns h H ns).2.2 h2 (by rw [h2] at h1; exact List.eq_nil_of_length_eq_zero h1.symm)] at hr
        cases hr
      · obtain ⟨R', h3, h4⟩ := (C92_returns h H ns).1 ⟨h1, h2⟩
        rw [h3] at hr; cases hr
        exact ⟨h4, h2⟩
    · rw [(C92_returns h H ns).2.1 h1] at hr
      cases hr
  obtain ⟨R', h3, -⟩ := (C92_returns h R ns).1 ⟨hl.1.symm, hl.2⟩
  rw [h3, C92_fixed h hv ns hns R R' h3 (C92_hermitian h hv ns hns H R hr) (C92_covariant h hv ns hns H R hr)
    (fun hi => C92_inversion h hv hi ns hns (hcl hi) H R hr)]

theorem mem_positions {ns : List (Fin d → K)} {x : Fin d → K} : x ∈ positions ns ↔ Found ns x := by
  unfold positions Found
  rw [List.mem_toFinset, List.mem_append, List.mem_map]
  constructor
  · rintro (h | ⟨r, hr, rfl⟩)
    · exact Or.inl h
    · exact Or.inr (by rwa [neg_neg])
  · rintro (h | h)
    · exact Or.inl h
    · exact Or.inr ⟨-x, h, neg_neg x⟩

theorem trace_sum_mul {α ι₁ ι₂ : Type} [Fintype ι₁] [Fintype ι₂] (l : List α) (f : α → Matrix ι₁ ι₂ F) (B : Matrix ι₂ ι₁ F) :
    ((l.map f).sum * B).trace = (l.map fun x => (f x * B).trace).sum := by
  induction l with
  | nil => simp
  | cons x l ih => simp [ih, Matrix.add_mul, Matrix.trace_add]

theorem Grp.inv_mem {S : List (Mat K d)} {o : Fin m → Orb K F d} {u : (a : Fin m) → Mat K d → Mat F (o a).N}
    (hg : Grp S o u) {q : Mat K d} (hq : q ∈ S) : ∃ t ∈ S, t * q = 1 ∧ q * t = 1 := by
  obtain ⟨t, ht, he⟩ := List.mem_map.1 ((perm_mul_right hg.nodup hg.mul hq (hg.det q hq)).symm.subset hg.one)
  exact ⟨t, ht, he, mul_eq_one_comm.1 he⟩

theorem list_sum_comm {α ι : Type} (l : List α) (Y : Finset ι) (f : α → ι → F) :
    ∑ x ∈ Y, (l.map fun s => f s x).sum = (l.map fun s => ∑ x ∈ Y, f s x).sum := by
  induction l with
  | nil => simp
  | cons s l ih => simp [Finset.sum_add_distrib, ih]

/-- **C92** Orthogonality: for every symmetric list `G` the difference of the result and the (Hermitian) input is orthogonal to
`G` — even block by block — in the scalar product that sums over all positions of the series. -/
theorem C92_orthogonal [CharZero F] (h : HSym K F d) (hv : Valid h) (ns : List (Fin d → K)) (hns : HalfList ns)
    (H R G : List (BMat h.orbs.get)) (hr : h.symmetrize H ns = .ok R) (hH : HermitianCoeff ns H) (hc : Spec.Covariant h ns G)
    (hic : h.sym.inversion = true → InvCovariant h ns G) (a b : Fin h.orbs.length) :
    ∑ x ∈ positions ns, (coeff ns R x a b * (coeff ns G x a b).conjTranspose).trace =
      ∑ x ∈ positions ns, (coeff ns H x a b * (coeff ns G x a b).conjTranspose).trace := by
  have hne : h.orbs ≠ [] := fun e => by have := a.2; simp [e] at this
  have hS := groupS_of_valid hv hne
  have hg := grp_of_valid hv hS.2 hS.1
  obtain ⟨hl, hl', C, -, hCi, hR⟩ := symmetrize_coeff hv hS hns hr
  rw [covariant_iff hg] at hc
  have h0 : ∀ x, coeff ns (hermOrigin ns H) x a b = coeff ns H x a b := by
    intro x
    rw [coeff_hermOrigin H hl]
    split_ifs with hx
    · subst hx
      have := hH a b 0
      rw [neg_zero] at this
      rw [← this, ← two_smul F (coeff ns H 0 a b), smul_smul, inv_mul_cancel₀ two_ne_zero, one_smul]
    · rfl
  -- first the mean
  have hmean : ∑ x ∈ positions ns, (coeff ns R x a b * (coeff ns G x a b).conjTranspose).trace =
      ∑ x ∈ positions ns, (C x a b * (coeff ns G x a b).conjTranspose).trace := by
    set f : (Fin d → K) → F := fun x => (C x a b * (coeff ns G x a b).conjTranspose).trace with hf
    set Y := (positions ns).filter fun x => ∀ s ∈ h.sym.S, Found ns (moved h.orbs.get s a b x) with hY
    have hmemY : ∀ x, x ∈ Y ↔ ∀ s ∈ h.sym.S, Found ns (moved h.orbs.get s a b x) := by
      intro x
      rw [hY, Finset.mem_filter, mem_positions]
      refine ⟨fun h => h.2, fun h => ⟨?_, h⟩⟩
      have := h 1 hg.one
      rwa [moved_one] at this
    have hmapY : ∀ s ∈ h.sym.S, ∀ x ∈ Y, moved h.orbs.get s a b x ∈ Y := by
      intro s hs x hx
      rw [hmemY] at hx ⊢
      intro t ht
      rw [moved_moved]
      exact hx _ (hg.mul t ht s hs)
    have hsum : ∀ s ∈ h.sym.S, ∑ x ∈ Y, f (moved h.orbs.get s a b x) = ∑ x ∈ Y, f x := by
      intro s hs
      obtain ⟨t, ht, h1, h2⟩ := hg.inv_mem hs
      refine Finset.sum_nbij' (moved h.orbs.get s a b) (moved h.orbs.get t a b) (hmapY s hs) (hmapY t ht) ?_ ?_ (fun _ _ => rfl)
      · intro x _; rw [moved_moved, h1, moved_one]
      · intro x _; rw [moved_moved, h2, moved_one]
    have hleft : ∀ x, (coeff ns R x a b * (coeff ns G x a b).conjTranspose).trace =
        if ∀ s ∈ h.sym.S, Found ns (moved h.orbs.get s a b x) then (h.sym.S.length : F)⁻¹ * (h.sym.S.map fun s => f (moved h.orbs.get s a b x)).sum
        else 0 := by
      intro x
      rw [hR]
      unfold meanVal
      split_ifs
      · rw [Matrix.smul_mul, Matrix.trace_smul, trace_sum_mul, smul_eq_mul]
        congr 2
        refine List.map_congr_left fun s hs => ?_
        rw [hf]
        simp only
        rw [hc s hs a b x, Matrix.conjTranspose_mul, Matrix.conjTranspose_mul, Matrix.conjTranspose_conjTranspose,
          Matrix.mul_assoc, Matrix.mul_assoc, Matrix.trace_mul_comm]
        simp only [Matrix.mul_assoc]
      · simp
    have hoff : ∀ x, ¬ (∀ s ∈ h.sym.S, Found ns (moved h.orbs.get s a b x)) → f x = 0 := by
      intro x hx
      push Not at hx
      obtain ⟨s, hs, hx⟩ := hx
      have h3 := hc s hs a b x
      rw [coeff_not_found hx] at h3
      have ha := mul_eq_one_comm.1 (hg.u_unitary a s hs)
      have hb' := mul_eq_one_comm.1 (hg.u_unitary b s hs)
      have h4 : coeff ns G x a b = (matOf h a s).conjTranspose * (matOf h a s * coeff ns G x a b * (matOf h b s).conjTranspose) *
          matOf h b s := by
        rw [Matrix.mul_assoc (matOf h a s), ← Matrix.mul_assoc, ha, Matrix.one_mul, Matrix.mul_assoc, hb', Matrix.mul_one]
      rw [hf]
      simp only
      rw [h4, ← h3]
      simp
    calc _ = ∑ x ∈ Y, (h.sym.S.length : F)⁻¹ * (h.sym.S.map fun s => f (moved h.orbs.get s a b x)).sum := by
          rw [Finset.sum_congr rfl fun x _ => hleft x, ← Finset.sum_filter]
      _ = (h.sym.S.length : F)⁻¹ * (h.sym.S.map fun s => ∑ x ∈ Y, f (moved h.orbs.get s a b x)).sum := by
          rw [← Finset.mul_sum, list_sum_comm]
      _ = (h.sym.S.length : F)⁻¹ * (h.sym.S.map fun _ => ∑ x ∈ Y, f x).sum := by
          rw [List.map_congr_left fun s hs => hsum s hs]
      _ = ∑ x ∈ Y, f x := by
          rw [List.map_const', List.sum_replicate, nsmul_eq_mul, ← mul_assoc, inv_mul_cancel₀, one_mul]
          exact Nat.cast_ne_zero.2 (List.length_pos_of_mem hg.one).ne'
      _ = _ := by
          rw [hY, Finset.sum_filter]
          refine Finset.sum_congr rfl fun x _ => ?_
          split_ifs with hx
          · rfl
          · exact (hoff x hx).symm
  rw [hmean]
  -- then the inversion
  split_ifs at hCi with hi
  · have hi' := hic hi
    set f : (Fin d → K) → F := fun x => (coeff ns H x a b * (coeff ns G x a b).conjTranspose).trace with hf
    have hinvol : ∀ x, moved h.orbs.get (-1) a b (moved h.orbs.get (-1) a b x) = x := by
      intro x; rw [moved_moved]; simp [moved_one]
    set Y := (positions ns).filter fun x => Found ns (moved h.orbs.get (-1) a b x) with hY
    have hmemY : ∀ x, x ∈ Y ↔ Found ns x ∧ Found ns (moved h.orbs.get (-1) a b x) := by
      intro x; rw [hY, Finset.mem_filter, mem_positions]
    have hmapY : ∀ x ∈ Y, moved h.orbs.get (-1) a b x ∈ Y := by
      intro x hx
      rw [hmemY] at hx ⊢
      rw [hinvol]
      exact hx.symm
    have hsum : ∑ x ∈ Y, f (moved h.orbs.get (-1) a b x) = ∑ x ∈ Y, f x :=
      Finset.sum_nbij' (moved h.orbs.get (-1) a b) (moved h.orbs.get (-1) a b) hmapY hmapY (fun x _ => hinvol x) (fun x _ => hinvol x)
        (fun _ _ => rfl)
    have hpp : star (paritySign (h.orbs.get a) * paritySign (h.orbs.get b)) = (paritySign (h.orbs.get a) * paritySign (h.orbs.get b) : F) := by
      rw [star_mul', paritySign_star, paritySign_star]
    have hleft : ∀ x ∈ positions ns, (C x a b * (coeff ns G x a b).conjTranspose).trace =
        if Found ns (moved h.orbs.get (-1) a b x) then (2 : F)⁻¹ * (f x + f (moved h.orbs.get (-1) a b x)) else 0 := by
      intro x hx
      rw [mem_positions] at hx
      rw [hCi]
      unfold invVal
      simp only [hx, true_and]
      split_ifs with hx'
      · rw [h0, h0, Matrix.smul_mul, Matrix.trace_smul, smul_eq_mul, Matrix.add_mul, Matrix.trace_add, hf]
        simp only
        rw [hi' a b x, Matrix.conjTranspose_smul, hpp, Matrix.smul_mul, Matrix.mul_smul]
      · simp
    have hoff : ∀ x, ¬ Found ns (moved h.orbs.get (-1) a b x) → f x = 0 := by
      intro x hx
      have h3 := hi' a b x
      rw [coeff_not_found hx] at h3
      have hne0 : paritySign (h.orbs.get a) * paritySign (h.orbs.get b) ≠ (0 : F) := by
        unfold paritySign; split_ifs <;> simp
      have h4 := (smul_eq_zero.1 h3.symm).resolve_left hne0
      rw [hf]
      simp only
      rw [h4]
      simp
    calc _ = ∑ x ∈ Y, (2 : F)⁻¹ * (f x + f (moved h.orbs.get (-1) a b x)) := by
          rw [Finset.sum_congr rfl hleft, ← Finset.sum_filter]
      _ = (2 : F)⁻¹ * (∑ x ∈ Y, f x + ∑ x ∈ Y, f x) := by
          rw [← Finset.mul_sum, Finset.sum_add_distrib, hsum]
      _ = ∑ x ∈ Y, f x := by rw [← two_mul, ← mul_assoc, inv_mul_cancel₀ two_ne_zero, one_mul]
      _ = _ := by
          rw [hY, Finset.sum_filter]
          refine Finset.sum_congr rfl fun x _ => ?_
          split_ifs with hx
          · rfl
          · exact (hoff x hx).symm
  · rw [hCi]
    exact Finset.sum_congr rfl fun x _ => by rw [h0]

end TB.HS
