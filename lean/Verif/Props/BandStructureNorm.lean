import Mathlib.LinearAlgebra.Matrix.Diagonal
import Mathlib.LinearAlgebra.Matrix.IsDiag
import Verif.Lemmas.BandStructure

/-!
# C75: `BandStructureModel.normalize` keeps the bands
-/

namespace TB.BS
open Matrix TB

variable {d n m : ℕ}

/-- What `np.linalg.eigh` guarantees for a hermitian matrix: unitary eigenvectors, ascending eigenvalues. -/
def Spec.IsEigh (eigh : CMat n → (Fin n → ℝ) × CMat n) : Prop :=
  ∀ M : CMat n, Mᴴ = M → (eigh M).2ᴴ * (eigh M).2 = 1 ∧
    M * (eigh M).2 = (eigh M).2 * diagonal (fun i => ((eigh M).1 i : ℂ)) ∧ Monotone (eigh M).1

/-- Conjugation with the diagonal matrix of the phases `c`. -/
def dconj (c : Fin n → ℂ) (P : CMat n) : CMat n := fun a b => star (c a) * P a b * c b

theorem dconj_eq (c : Fin n → ℂ) (P : CMat n) : dconj c P = (diagonal c)ᴴ * P * diagonal c := by
  ext a b
  rw [diagonal_conjTranspose, mul_diagonal, diagonal_mul]; rfl

/-- State of the loop before step `i`: all matrices were conjugated with phases, `params[1]` lost entries next to the
diagonal of absolute value at most `1e-14`. -/
structure LoopInv (P1 : CMat n) (R : List (CMat n)) (i : ℕ) (st : CMat n × List (CMat n)) (c : Fin n → ℂ) (e : CMat n) :
    Prop where
  unit : ∀ a, star (c a) * c a = 1
  rest : ∀ a : Fin n, i ≤ a → c a = 1
  others : st.2 = R.map (dconj c)
  first : ∀ a b, st.1 a b = dconj c P1 a b - e a b
  supp : ∀ a b : Fin n, e a b ≠ 0 → b.1 = a.1 + 1 ∧ b.1 < i
  small : ∀ a b, ‖e a b‖ ≤ 1e-14
  real : ∀ a b : Fin n, b.1 = a.1 + 1 → b.1 < i → st.1 a b = (‖st.1 a b‖ : ℂ)

theorem phaseStep_inv {P1 : CMat n} {R : List (CMat n)} {i : ℕ} {st : CMat n × List (CMat n)} {c : Fin n → ℂ}
    {e : CMat n} (h : LoopInv P1 R i st c e) (hi : 0 < i) (hin : i < n) :
    ∃ c' e', LoopInv P1 R (i + 1) (phaseStep st i) c' e' := by
  have hphase : phaseStep st i = if ‖st.1 ⟨i - 1, by omega⟩ ⟨i, hin⟩‖ > 1e-14 then
      (phaseCol ⟨i, hin⟩ ((starRingEnd ℂ) (st.1 ⟨i - 1, by omega⟩ ⟨i, hin⟩) / ‖st.1 ⟨i - 1, by omega⟩ ⟨i, hin⟩‖) st.1,
        st.2.map (phaseCol ⟨i, hin⟩
          ((starRingEnd ℂ) (st.1 ⟨i - 1, by omega⟩ ⟨i, hin⟩) / ‖st.1 ⟨i - 1, by omega⟩ ⟨i, hin⟩‖)))
      else (fun r c => if r = ⟨i - 1, by omega⟩ ∧ c = ⟨i, hin⟩ then 0 else st.1 r c, st.2) := by
    unfold phaseStep
    rw [dif_pos ⟨hi, hin⟩]
  set p : Fin n := ⟨i - 1, by omega⟩ with hp
  set q : Fin n := ⟨i, hin⟩ with hq
  set x := st.1 p q with hx
  rw [hphase]
  by_cases hbig : ‖x‖ > 1e-14
  · rw [if_pos hbig]
    set s : ℂ := (starRingEnd ℂ) x / ‖x‖ with hs
    have hx0 : (‖x‖ : ℂ) ≠ 0 := by
      have : (0 : ℝ) < ‖x‖ := lt_trans (by norm_num) hbig
      exact_mod_cast this.ne'
    have hxx : (starRingEnd ℂ) x * x = (‖x‖ : ℂ) * ‖x‖ := by
      rw [mul_comm, Complex.mul_conj, Complex.normSq_eq_norm_sq]; push_cast; ring
    have hss : star s * s = 1 := by
      have : star s = x / ‖x‖ := by
        rw [hs]; simp
      rw [this, hs]
      field_simp
      linear_combination hxx
    have hcq : c q = 1 := h.rest q le_rfl
    refine ⟨fun a => if a = q then s else c a, e, ?_, ?_, ?_, ?_, ?_, h.small, ?_⟩
    · intro a
      by_cases ha : a = q
      · simp only [if_pos ha]; exact hss
      · simp only [if_neg ha]; exact h.unit a
    · intro a ha
      have : a ≠ q := by
        intro hc; rw [hc] at ha; simp only [hq] at ha; omega
      rw [if_neg this]
      exact h.rest a (by omega)
    · have hpc : ∀ P : CMat n, phaseCol q s (dconj c P) = dconj (fun a => if a = q then s else c a) P := by
        intro P; ext a b
        simp only [phaseCol, dconj]
        by_cases ha : a = q <;> by_cases hb : b = q
        · simp only [ha, hb, if_true, hcq, star_one, one_mul, mul_one]
          rw [show (starRingEnd ℂ) s = star s from rfl]; ring
        · simp only [ha, hb, if_true, if_false, hcq, star_one, one_mul]
          rw [show (starRingEnd ℂ) s = star s from rfl]; ring
        · simp only [ha, hb, if_true, if_false, hcq, one_mul, mul_one]; ring
        · simp only [ha, hb, if_false, one_mul]
      simp only [h.others, List.map_map]
      exact List.map_congr_left fun P _ => hpc P
    · intro a b
      simp only [phaseCol, h.first a b, dconj]
      have he : a = q ∨ b = q → e a b = 0 := by
        intro hab
        by_contra hne
        obtain ⟨h1, h2⟩ := h.supp a b hne
        rcases hab with rfl | rfl
        · simp only [hq] at h1; omega
        · simp only [hq] at h2; omega
      by_cases ha : a = q <;> by_cases hb : b = q
      · have := he (Or.inl ha)
        rw [ha, hb] at this
        simp only [ha, hb, if_true, hcq, star_one, one_mul, mul_one, this, sub_zero]
        rw [show (starRingEnd ℂ) s = star s from rfl]; ring
      · have := he (Or.inl ha)
        rw [ha] at this
        simp only [ha, hb, if_true, if_false, hcq, star_one, one_mul, this, sub_zero]
        rw [show (starRingEnd ℂ) s = star s from rfl]; ring
      · have := he (Or.inr hb)
        rw [hb] at this
        simp only [ha, hb, if_true, if_false, hcq, one_mul, mul_one, this, sub_zero]; ring
      · simp only [ha, hb, if_false, one_mul]
    · intro a b hne
      obtain ⟨h1, h2⟩ := h.supp a b hne
      exact ⟨h1, by omega⟩
    · intro a b hab hbi
      by_cases hb : b = q
      · have ha : a = p := by
          apply Fin.ext; simp only [hp]; rw [hb] at hab; simp only [hq] at hab; omega
        have hpq : p ≠ q := by
          intro hc; have := congrArg Fin.val hc; simp only [hp, hq] at this; omega
        have hval : phaseCol q s st.1 a b = (‖x‖ : ℂ) := by
          simp only [phaseCol, ha, hb, if_neg hpq, if_true, one_mul]
          rw [← hx, hs, div_mul_eq_mul_div, hxx, mul_div_assoc, div_self hx0, mul_one]
        simp only [hval, Complex.norm_real, norm_norm]
      · have ha : a ≠ q := by
          intro hc
          have h1 : a.1 = i := by rw [hc]
          have h2 : b.1 ≠ i := fun h => hb (Fin.ext h)
          omega
        have hval : phaseCol q s st.1 a b = st.1 a b := by
          simp only [phaseCol, if_neg ha, if_neg hb, one_mul]
        simp only [hval]
        have h2 : b.1 ≠ i := fun h => hb (Fin.ext h)
        exact h.real a b hab (by omega)
  · rw [if_neg hbig]
    refine ⟨c, fun a b => if a = p ∧ b = q then x else e a b, h.unit, fun a ha => h.rest a (by omega), h.others, ?_, ?_,
      ?_, ?_⟩
    · intro a b
      by_cases hab : a = p ∧ b = q
      · simp only [if_pos hab]
        rw [hab.1, hab.2]
        have he : e p q = 0 := by
          by_contra hne
          have := (h.supp p q hne).2
          simp only [hq] at this; omega
        have := h.first p q
        rw [he, sub_zero] at this
        rw [hx, this, sub_self]
      · simp only [if_neg hab]; exact h.first a b
    · intro a b hne
      by_cases hab : a = p ∧ b = q
      · rw [hab.1, hab.2]; simp only [hp, hq]; omega
      · simp only [if_neg hab] at hne
        obtain ⟨h1, h2⟩ := h.supp a b hne
        exact ⟨h1, by omega⟩
    · intro a b
      by_cases hab : a = p ∧ b = q
      · simp only [if_pos hab]; exact not_lt.1 hbig
      · simp only [if_neg hab]; exact h.small a b
    · intro a b hab hbi
      by_cases hb : a = p ∧ b = q
      · simp only [if_pos hb]; simp
      · simp only [if_neg hb]
        refine h.real a b hab ?_
        have : b.1 ≠ i := by
          intro hc
          apply hb
          exact ⟨Fin.ext (by simp only [hp]; omega), Fin.ext hc⟩
        omega

theorem loop_inv (P1 : CMat n) (R : List (CMat n)) (N : ℕ) (hN : N ≤ n) :
    ∃ c e, LoopInv P1 R N (((List.range N).drop 1).foldl phaseStep (P1, R)) c e := by
  have base : ∀ N ≤ 1, LoopInv P1 R N (P1, R) (fun _ => 1) 0 := by
    intro N hN
    refine ⟨by simp, fun _ _ => rfl, ?_, ?_, by simp, by simp; norm_num, ?_⟩
    · have : dconj (fun _ : Fin n => (1 : ℂ)) = id := by funext P; ext a b; simp [dconj]
      simp [this]
    · intro a b; simp [dconj]
    · intro a b h1 h2; omega
  induction N with
  | zero => exact ⟨_, _, base 0 (by omega)⟩
  | succ N ih =>
    rcases Nat.eq_zero_or_pos N with rfl | hpos
    · exact ⟨_, _, base 1 le_rfl⟩
    · obtain ⟨c, e, h⟩ := ih (by omega)
      rw [List.range_succ, List.drop_append_of_le_length (by simp; omega), List.foldl_append]
      exact phaseStep_inv h hpos (by omega)

/-- The coefficient functions allow the matrices after the first to be replaced by their hermitian parts, or this is not
done, or changes nothing. -/
def Spec.Normalizable (b : BSM d n) : Prop :=
  (∀ P ∈ b.Ps, Pᴴ = P) ∨ (∀ k i, star (b.coeff.fi k i) = b.coeff.fi k i) ∨
    ∃ t, b.coeff = .tb t ∧ (t.exp = false ∨ t.inversion = false)

/-- The coefficient functions without `exp` are real. -/
theorem fi_real (t : TBData d) (h : t.exp = false) (k : RVec d) (i : ℕ) : star (t.fi k i) = t.fi k i := by
  unfold TBData.fi
  split_ifs
  · simp
  · rw [foldl_add_sum, zero_add]
    have hf : ∀ p x, star (t.func p x) = t.func p x := by
      intro p x
      unfold TBData.func
      rw [if_neg (by simp [h])]
      have h1 : ∀ y : ℝ, star (y : ℂ) = y := Complex.conj_ofReal
      split_ifs <;> simp only [star_sub, star_one, h1]
    induction t.S with
    | nil => simp
    | cons s l ih => rw [List.map_cons, List.sum_cons, star_add, ih, hf]

theorem unit_norm {c : Fin n → ℂ} (h : ∀ a, star (c a) * c a = 1) : (diagonal c)ᴴ * diagonal c = 1 := by
  rw [diagonal_conjTranspose, diagonal_mul_diagonal, ← diagonal_one]
  congr 1; funext a; exact h a

/-- Replacing the matrices by their hermitian parts does not change `f` under the condition `Normalizable`. -/
theorem herm_f (b : BSM d n) (hN : Spec.Normalizable b) (herm : Bool)
    (hherm : herm = b.coeff.needHerm) (k : RVec d) :
    ({ b with Ps := if herm then b.Ps.map fun P => (1 / 2 : ℂ) • plusAdj P else b.Ps } : BSM d n).f k = b.f k := by
  have hsame : (∀ P ∈ b.Ps, Pᴴ = P) → (b.Ps.map fun P => (1 / 2 : ℂ) • plusAdj P) = b.Ps := by
    intro h
    conv_rhs => rw [← List.map_id b.Ps]
    refine List.map_congr_left fun P hP => ?_
    rw [plusAdj, h P hP, id]; module
  have hreal : (∀ k i, star (b.coeff.fi k i) = b.coeff.fi k i) →
      ({ b with Ps := b.Ps.map fun P => (1 / 2 : ℂ) • plusAdj P } : BSM d n).f k = b.f k := by
    intro h
    have hsum : ∑ i ∈ Finset.range (b.Ps.map fun P => (1 / 2 : ℂ) • plusAdj P).length,
          b.coeff.fi k (i + 1) • (b.Ps.map fun P => (1 / 2 : ℂ) • plusAdj P).getD i 0 =
        (1 / 2 : ℂ) • ((∑ i ∈ Finset.range b.Ps.length, b.coeff.fi k (i + 1) • b.Ps.getD i 0) +
          (∑ i ∈ Finset.range b.Ps.length, b.coeff.fi k (i + 1) • b.Ps.getD i 0)ᴴ) := by
      rw [conjTranspose_sum, ← Finset.sum_add_distrib, Finset.smul_sum, List.length_map]
      refine Finset.sum_congr rfl fun i _ => ?_
      have := List.getD_map (l := b.Ps) (d := 0) (n := i) (f := fun P => (1 / 2 : ℂ) • plusAdj P)
      rw [show ((1 / 2 : ℂ) • plusAdj (0 : CMat n)) = 0 by simp [plusAdj]] at this
      rw [this, conjTranspose_smul, h, plusAdj]
      module
    simp only [BSM.f, BSM.hsum, hsum]
    congr 1
    rw [conjTranspose_smul, conjTranspose_add, conjTranspose_conjTranspose, show star (1 / 2 : ℂ) = 1 / 2 by simp]
    module
  cases herm with
  | false => rfl
  | true =>
    simp only [if_true]
    rcases hN with h | h | ⟨t, ht, h⟩
    · rw [hsame h]
    · exact hreal h
    · rw [ht] at hherm
      rcases h with h | h
      · exact hreal fun k i => by rw [ht]; exact fi_real t h k i
      · simp only [Coeff.needHerm, h, Bool.or_false] at hherm
        have hexp : t.exp = false := by simpa using hherm.symm
        exact hreal fun k i => by rw [ht]; exact fi_real t hexp k i

/-- **C75.** `normalize()` without symmetrizer, for a hermitian first matrix: up to `1e-14 |f_1(k)|` in each entry the
Hamiltonian becomes `V† f(k) V` with one unitary `V` for all `k`, so the bands stay. The first matrix becomes diagonal
with ascending entries, the entries of the second one right of its diagonal become real and not negative. -/
theorem C75_normalize (eigh : CMat n → (Fin n → ℝ) × CMat n) (hE : Spec.IsEigh eigh) (b : BSM d n)
    (hs : b.symmetrizer = none) (h0 : b.P0ᴴ = b.P0) (hN : Spec.Normalizable b) :
    ∃ V : CMat n, Vᴴ * V = 1 ∧
      (∀ k i j, ‖(b.normalize eigh).f k i j - (Vᴴ * b.f k * V) i j‖ ≤ 1e-14 * ‖b.coeff.fi k 1‖) ∧
      (∃ w : Fin n → ℝ, Monotone w ∧ (b.normalize eigh).P0 = diagonal fun i => (w i : ℂ)) ∧
      (∀ P1 rest, (b.normalize eigh).Ps = P1 :: rest → ∀ i j : Fin n, j.1 = i.1 + 1 → ∃ x : ℝ, 0 ≤ x ∧ P1 i j = x) ∧
      (b.normalize eigh).coeff = b.coeff ∧ (b.normalize eigh).Ps.length = b.Ps.length := by
  obtain ⟨hU, hUM, hmono⟩ := hE b.P0 h0
  set U := (eigh b.P0).2 with hUdef
  have hP0 : (1 / 2 : ℂ) • plusAdj b.P0 = b.P0 := by rw [plusAdj, h0]; module
  have hdiag : Uᴴ * b.P0 * U = diagonal (fun i => ((eigh b.P0).1 i : ℂ)) := by
    rw [Matrix.mul_assoc, hUM, ← Matrix.mul_assoc, hU, Matrix.one_mul]
  have hf := herm_f b hN _ rfl
  set Ps := if b.coeff.needHerm then b.Ps.map fun P => (1 / 2 : ℂ) • plusAdj P else b.Ps with hPs
  have hlen : Ps.length = b.Ps.length := by rw [hPs]; split_ifs <;> simp
  -- conjugation with a unitary matrix
  have conj : ∀ (V : CMat n) (b' : BSM d n), b'.coeff = b.coeff → b'.P0 = Vᴴ * b.P0 * V →
      b'.Ps = Ps.map (fun P => Vᴴ * P * V) → ∀ k, b'.f k = Vᴴ * b.f k * V := by
    intro V b' hc h1 h2 k
    rw [← hf k]
    have := hsum_map_hom { b with Ps := Ps } b' (b.coeff.fi k)
      ⟨⟨fun P => Vᴴ * P * V, by simp⟩, fun P Q => by simp [Matrix.mul_add, Matrix.add_mul]⟩
      (fun z M => by simp) (fun M => by simp [conjTranspose_mul, Matrix.mul_assoc]) h1 h2
    simp only [BSM.f, hc]
    exact this
  have hnorm : b.normalize eigh = match Ps.map fun P => Uᴴ * P * U with
      | [] => { b with P0 := Uᴴ * b.P0 * U, Ps := [] }
      | P1 :: Q =>
        match ((List.range n).drop 1).foldl phaseStep (P1, Uᴴ * b.P0 * U :: Q) with
        | (P1, P0 :: Q) => { b with P0 := P0, Ps := P1 :: Q }
        | (P1, []) => { b with Ps := [P1] } := by
    unfold BSM.normalize
    rw [hs]
    simp only [hP0, ← hPs, ← hUdef]
    cases Ps.map fun P => Uᴴ * P * U <;> rfl
  rw [hnorm]
  cases hcase : Ps.map fun P => Uᴴ * P * U with
  | nil =>
    dsimp only
    have hPs0 : Ps = [] := List.map_eq_nil_iff.1 hcase
    refine ⟨U, hU, fun k i j => ?_, ⟨_, hmono, hdiag⟩, fun P1 rest h => by simp at h, rfl, by rw [← hlen, hPs0]⟩
    rw [conj U { b with P0 := Uᴴ * b.P0 * U, Ps := [] } rfl rfl (by rw [hPs0]; rfl) k, sub_self, norm_zero]
    exact mul_nonneg (by norm_num) (norm_nonneg _)
  | cons P1 Q =>
    dsimp only
    obtain ⟨c, e, h⟩ := loop_inv P1 (Uᴴ * b.P0 * U :: Q) n le_rfl
    cases hst : ((List.range n).drop 1).foldl phaseStep (P1, Uᴴ * b.P0 * U :: Q) with
    | mk P1' R' =>
    rw [hst] at h
    have hR : R' = dconj c (Uᴴ * b.P0 * U) :: Q.map (dconj c) := h.others
    subst hR
    dsimp only
    have hD := unit_norm h.unit
    have hV : ∀ P : CMat n, dconj c (Uᴴ * P * U) = (U * diagonal c)ᴴ * P * (U * diagonal c) := by
      intro P
      rw [dconj_eq, conjTranspose_mul]
      simp only [Matrix.mul_assoc]
    refine ⟨U * diagonal c, ?_, fun k i j => ?_, ⟨_, hmono, ?_⟩, fun P1'' rest hp i j hij => ?_, rfl, ?_⟩
    · rw [conjTranspose_mul, Matrix.mul_assoc, ← Matrix.mul_assoc Uᴴ, hU, Matrix.one_mul, hD]
    · set b₂ : BSM d n := { b with P0 := dconj c (Uᴴ * b.P0 * U), Ps := dconj c P1 :: Q.map (dconj c) } with hb₂
      have e2 := conj (U * diagonal c) b₂ rfl (hV _) (by
        have : b₂.Ps = (Ps.map fun P => Uᴴ * P * U).map (dconj c) := by rw [hcase]; rfl
        rw [this, List.map_map]
        exact List.map_congr_left fun P _ => hV P) k
      rw [← e2]
      have hP1 : P1' = dconj c P1 - e := by ext a b; exact h.first a b
      have hd : ∀ g : ℕ → ℂ, ({ b with P0 := dconj c (Uᴴ * b.P0 * U), Ps := P1' :: Q.map (dconj c) } : BSM d n).hsum g =
          b₂.hsum g - (g 1 • e + (g 1 • e)ᴴ) := by
        intro g
        have h1 : ∀ X : CMat n, ∑ i ∈ Finset.range (X :: Q.map (dconj c)).length,
            g (i + 1) • (X :: Q.map (dconj c)).getD i 0 =
            g 1 • X + ∑ i ∈ Finset.range (Q.map (dconj c)).length, g (i + 2) • (Q.map (dconj c)).getD i 0 := by
          intro X
          rw [List.length_cons, Finset.sum_range_succ', add_comm]
          rfl
        simp only [BSM.hsum, hb₂, h1, hP1, smul_sub, conjTranspose_add, conjTranspose_sub]
        abel
      have hval : ({ b with P0 := dconj c (Uᴴ * b.P0 * U), Ps := P1' :: Q.map (dconj c) } : BSM d n).f k i j - b₂.f k i j =
          -(b.coeff.fi k 1 * e i j + star (b.coeff.fi k 1 * e j i)) := by
        have := hd (b.coeff.fi k)
        simp only [BSM.f] at this ⊢
        rw [this]
        simp only [Matrix.sub_apply, Matrix.add_apply, Matrix.smul_apply, conjTranspose_apply, smul_eq_mul, hb₂]
        ring
      rw [hval, norm_neg]
      by_cases hij : e i j = 0
      · rw [hij, mul_zero, zero_add, norm_star, norm_mul, mul_comm]
        exact mul_le_mul_of_nonneg_right (h.small _ _) (norm_nonneg _)
      · have : e j i = 0 := by
          by_contra hji
          have h1 := (h.supp _ _ hij).1
          have h2 := (h.supp _ _ hji).1
          omega
        rw [this, mul_zero, star_zero, add_zero, norm_mul, mul_comm]
        exact mul_le_mul_of_nonneg_right (h.small _ _) (norm_nonneg _)
    · rw [hdiag]
      ext a b'
      simp only [dconj]
      by_cases hab : a = b'
      · rw [hab, diagonal_apply_eq, mul_assoc, mul_comm ((eigh b.P0).1 b' : ℂ), ← mul_assoc, h.unit, one_mul]
      · rw [diagonal_apply_ne _ hab, mul_zero, zero_mul]
    · have : P1'' = P1' := by simpa using (List.cons.inj hp).1.symm
      rw [this]
      exact ⟨‖P1' i j‖, norm_nonneg _, h.real i j hij j.2⟩
    · have := congrArg List.length hcase
      simp only [List.length_map, List.length_cons] at this ⊢
      omega

/-- Such a routine exists for `1×1` matrices, and a model to which the theorem applies. -/
example : ∃ (eigh : CMat 1 → (Fin 1 → ℝ) × CMat 1) (b : BSM 1 1), Spec.IsEigh eigh ∧ b.symmetrizer = none ∧
    b.P0ᴴ = b.P0 ∧ Spec.Normalizable b ∧ b.Ps.length = 1 := by
  refine ⟨fun M => (fun _ => (M 0 0).re, 1), ⟨.tb ⟨[1], false, [0, ![1]], false, true⟩, 1, [1], none⟩, ?_, rfl,
    conjTranspose_one, Or.inr (Or.inr ⟨_, rfl, Or.inr rfl⟩), rfl⟩
  intro M hM
  refine ⟨by simp, ?_, fun _ _ _ => le_rfl⟩
  ext i j
  rw [Subsingleton.elim i 0, Subsingleton.elim j 0]
  have h := congrFun (congrFun hM 0) 0
  rw [conjTranspose_apply] at h
  simp only [Matrix.mul_one, Matrix.one_mul, diagonal_apply_eq]
  exact (Complex.conj_eq_iff_re.1 h).symm

/-- **C75.** With a symmetrizer `normalize()` only applies it. -/
theorem C75_symmetrizer (eigh : CMat n → (Fin n → ℝ) × CMat n) (b : BSM d n)
    (s : CMat n × List (CMat n) → CMat n × List (CMat n)) (hs : b.symmetrizer = some s) :
    (b.normalize eigh).params = (s (b.P0, b.Ps)).1 :: (s (b.P0, b.Ps)).2 ∧ (b.normalize eigh).coeff = b.coeff := by
  unfold BSM.normalize
  rw [hs]
  exact ⟨rfl, rfl⟩

theorem phaseCol_herm (i : Fin n) (sign : ℂ) (P : CMat n) (h : Pᴴ = P) : (phaseCol i sign P)ᴴ = phaseCol i sign P := by
  ext a b
  have hab : star (P b a) = P a b := congrFun (congrFun h a) b
  rw [conjTranspose_apply, phaseCol, phaseCol, star_mul', star_mul', hab]
  by_cases ha : a = i <;> by_cases hb : b = i <;> simp [ha, hb] <;> ring

theorem phaseStep_herm (st : CMat n × List (CMat n)) (i : ℕ) (h : ∀ P ∈ st.2, Pᴴ = P) : ∀ P ∈ (phaseStep st i).2, Pᴴ = P := by
  unfold phaseStep
  split
  · simp only
    split_ifs
    · intro P hP
      obtain ⟨Q, hQ, rfl⟩ := List.mem_map.1 hP
      exact phaseCol_herm _ _ _ (h Q hQ)
    · exact h
  · exact h

/-- **C75.** With `exp=False` or inversion symmetry, and for own coefficient functions, the matrices from the third one on are
hermitian after `normalize()` without symmetrizer, whatever they were before. -/
theorem C75_hermitian (eigh : CMat n → (Fin n → ℝ) × CMat n) (b : BSM d n) (hs : b.symmetrizer = none)
    (hb : ∀ t, b.coeff = .tb t → t.exp = false ∨ t.inversion = true) : ∀ P ∈ (b.normalize eigh).Ps.tail, Pᴴ = P := by
  have hneed : b.coeff.needHerm = true := by
    cases hc : b.coeff with
    | custom => rfl
    | tb t =>
      rcases hb t hc with h | h <;> simp [Coeff.needHerm, h]
  have hherm : ∀ P : CMat n, ((1 / 2 : ℂ) • plusAdj P)ᴴ = (1 / 2 : ℂ) • plusAdj P := by
    intro P
    have : star (1 / 2 : ℂ) = 1 / 2 := by simp
    rw [conjTranspose_smul, this, plusAdj, conjTranspose_add, conjTranspose_conjTranspose, add_comm]
  unfold BSM.normalize
  rw [hs, hneed]
  simp only [if_true]
  obtain ⟨V, hV⟩ : ∃ V, V = (eigh ((1 / 2 : ℂ) • plusAdj b.P0)).2 := ⟨_, rfl⟩
  rw [← hV]
  have hconj : ∀ P ∈ (b.Ps.map fun P => (1 / 2 : ℂ) • plusAdj P).map (fun P => Vᴴ * P * V), Pᴴ = P := by
    intro P hP
    obtain ⟨Q, hQ, rfl⟩ := List.mem_map.1 hP
    obtain ⟨R, -, rfl⟩ := List.mem_map.1 hQ
    simp only [conjTranspose_mul, conjTranspose_conjTranspose, hherm, Matrix.mul_assoc]
  have h0 : (Vᴴ * ((1 / 2 : ℂ) • plusAdj b.P0) * V)ᴴ = Vᴴ * ((1 / 2 : ℂ) • plusAdj b.P0) * V := by
    simp only [conjTranspose_mul, conjTranspose_conjTranspose, hherm, Matrix.mul_assoc]
  obtain ⟨X, hX⟩ : ∃ X, X = (b.Ps.map fun P => (1 / 2 : ℂ) • plusAdj P).map (fun P => Vᴴ * P * V) := ⟨_, rfl⟩
  rw [← hX] at hconj ⊢
  cases X with
  | nil => simp
  | cons P1 Q =>
    have hfold : ∀ (l : List ℕ) (st : CMat n × List (CMat n)), (∀ P ∈ st.2, Pᴴ = P) → ∀ P ∈ (l.foldl phaseStep st).2, Pᴴ = P := by
      intro l
      induction l with
      | nil => exact fun st h => h
      | cons i l ih => exact fun st h => ih _ (phaseStep_herm st i h)
    have key := hfold ((List.range n).drop 1) (P1, Vᴴ * ((1 / 2 : ℂ) • plusAdj b.P0) * V :: Q) (by
      intro P hP
      rcases List.mem_cons.1 hP with rfl | hP
      · exact h0
      · exact hconj P (List.mem_cons_of_mem _ hP))
    simp only
    generalize ((List.range n).drop 1).foldl phaseStep (P1, Vᴴ * ((1 / 2 : ℂ) • plusAdj b.P0) * V :: Q) = st at key
    obtain ⟨P1', R⟩ := st
    cases R with
    | nil => simp
    | cons P0' Q' => exact fun P hP => key P (List.mem_cons_of_mem _ hP)

/-- `C75_hermitian`: exponentials with inversion, the third matrix is not hermitian. -/
example : ∃ b : BSM 1 1, b.symmetrizer = none ∧ (∀ t, b.coeff = .tb t → t.exp = false ∨ t.inversion = true) ∧
    ∃ P ∈ b.Ps.tail, Pᴴ ≠ P := by
  refine ⟨⟨.tb ⟨[1], true, [0, ![1], ![2]], false, true⟩, 1, [1, Complex.I • 1], none⟩, rfl, ?_, Complex.I • 1, by simp, ?_⟩
  · intro t ht
    right
    rw [← Coeff.tb.inj ht]
  · intro h
    have := congrFun (congrFun h 0) 0
    rw [conjTranspose_apply] at this
    simp at this
    have := congrArg Complex.im this
    simp at this
    norm_num at this

end TB.BS
