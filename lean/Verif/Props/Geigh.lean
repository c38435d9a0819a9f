import Mathlib.Analysis.Matrix.PosDef
import Verif.Model.Geigh
import Verif.Props.Lipschitz

/-!
# C125: `geigh`, `geigvalsh` and the fast path for an overlap close to one
-/

namespace TB.PropsGeigh
open Matrix TB TB.Geigh TB.PropsLipschitz
open scoped ComplexOrder

variable {n : ℕ}

/-- What the library routines promise: eigenvalues in ascending order with normalised eigenvectors; an overlap that is not positive definite is refused. -/
structure Contract (lib : Lib n) : Prop where
  np : ∀ H : CMat n, H.IsHermitian → ∃ r, lib.npEigh H = .ok r ∧ TB.Spec.IsGeigh H 1 r.1 r.2
  sp : ∀ H S : CMat n, H.IsHermitian → S.PosDef → ∃ r, lib.spEigh H S = .ok r ∧ TB.Spec.IsGeigh H S r.1 r.2
  bad : ∀ H S : CMat n, H.IsHermitian → S.IsHermitian → ¬ S.PosDef → lib.spEigh H S = .error .valueError

theorem contract_exists : ∃ lib : Lib n, Contract lib := by
  classical
  have h1 : ∀ H : CMat n, H.IsHermitian → ∃ r : (Fin n → ℝ) × CMat n, TB.Spec.IsGeigh H 1 r.1 r.2 := fun H hH => by
    obtain ⟨e, V, h⟩ := SE.exists_geigh hH PosDef.one
    exact ⟨(e, V), h⟩
  have h2 : ∀ H S : CMat n, H.IsHermitian → S.PosDef → ∃ r : (Fin n → ℝ) × CMat n, TB.Spec.IsGeigh H S r.1 r.2 := fun H S hH hS => by
    obtain ⟨e, V, h⟩ := SE.exists_geigh hH hS
    exact ⟨(e, V), h⟩
  refine ⟨⟨fun H => if h : H.IsHermitian then .ok (h1 H h).choose else .error .valueError,
    fun H S => if h : H.IsHermitian ∧ S.PosDef then .ok (h2 H S h.1 h.2).choose else .error .valueError⟩, ⟨fun H h => ?_, fun H S h h' => ?_, fun H S _ _ h => ?_⟩⟩
  · exact ⟨_, by simp only [dif_pos h], (h1 H h).choose_spec⟩
  · exact ⟨_, by simp only [dif_pos (And.intro h h')], (h2 H S h h').choose_spec⟩
  · simp only
    rw [dif_neg (fun hc => h hc.2)]

/-- The forms of `S` and of one differ by at most the Frobenius norm. -/
theorem form_near (S : CMat n) (a : Fin n → ℂ) :
    |(star a ⬝ᵥ (S *ᵥ a)).re - ∑ i, ‖a i‖ ^ 2| ≤ Real.sqrt (∑ i, ∑ j, ‖(S - 1) i j‖ ^ 2) * ∑ i, ‖a i‖ ^ 2 := by
  have h := (Complex.abs_re_le_norm _).trans (form_frob (S - 1) a)
  rwa [sub_mulVec, dotProduct_sub, Complex.sub_re, SE.form_one] at h

/-- Eigenvalues with respect to an overlap close to one. -/
theorem near_one {H S V W : CMat n} {e f : Fin n → ℝ} (h : TB.Spec.IsGeigh H 1 e V) (g : TB.Spec.IsGeigh H S f W) {ε : ℝ} (hε : ε < 1)
    (hS : Real.sqrt (∑ i, ∑ j, ‖(S - 1) i j‖ ^ 2) ≤ ε) (b : Fin n) : |e b - f b| ≤ ε * |f b| := by
  have h0 : 0 ≤ ε := (Real.sqrt_nonneg _).trans hS
  have hform : ∀ a : Fin n → ℂ, |(star a ⬝ᵥ (S *ᵥ a)).re - ∑ i, ‖a i‖ ^ 2| ≤ ε * ∑ i, ‖a i‖ ^ 2 := fun a =>
    (form_near S a).trans (mul_le_mul_of_nonneg_right hS (Finset.sum_nonneg fun _ _ => sq_nonneg _))
  have hspan : ∀ {X Y Z : CMat n} {x : Fin n → ℝ}, TB.Spec.IsGeigh X Y x Z → ∀ a : Fin n → ℂ, (∀ j, b < j → a j = 0) →
      (star (Z *ᵥ a) ⬝ᵥ (X *ᵥ (Z *ᵥ a))).re ≤ x b * (star (Z *ᵥ a) ⬝ᵥ (Y *ᵥ (Z *ᵥ a))).re := by
    intro X Y Z x k a ha
    rw [SE.star_rot, SE.star_rot, k.diag, k.norm, SE.form_one, SE.star_dot_diag, Finset.mul_sum]
    refine Finset.sum_le_sum fun j _ => ?_
    by_cases hj : b < j
    · simp [ha j hj]
    · exact mul_le_mul_of_nonneg_right (k.mono (not_lt.1 hj)) (sq_nonneg _)
  -- upper bound
  have up : e b ≤ f b + ε * |f b| := by
    refine SE.minmax h (SE.det_of_norm g.norm) b _ fun a ha => ?_
    rw [← SE.star_rot, ← SE.star_rot, SE.form_one]
    have h1 := hspan g a ha
    have h2 := abs_le.1 (hform (W *ᵥ a))
    rcases le_total 0 (f b) with hf | hf
    · rw [abs_of_nonneg hf]
      have := mul_le_mul_of_nonneg_left h2.2 hf
      linarith
    · rw [abs_of_nonpos hf]
      have := mul_le_mul_of_nonpos_left h2.1 hf
      linarith
  -- lower bound
  have low : f b ≤ if 0 ≤ e b then e b / (1 - ε) else e b / (1 + ε) := by
    refine SE.minmax g (SE.det_of_norm h.norm) b _ fun a ha => ?_
    rw [← SE.star_rot, ← SE.star_rot]
    have h1 := hspan h a ha
    rw [SE.form_one] at h1
    have h2 := abs_le.1 (hform (V *ᵥ a))
    refine h1.trans ?_
    split
    · rename_i he
      rw [div_mul_eq_mul_div, le_div_iff₀ (by linarith), mul_assoc]
      refine mul_le_mul_of_nonneg_left ?_ he
      linarith
    · rename_i he
      rw [div_mul_eq_mul_div, le_div_iff₀ (by linarith), mul_assoc]
      refine mul_le_mul_of_nonpos_left ?_ (not_le.1 he).le
      linarith
  rw [abs_le]
  refine ⟨?_, by linarith⟩
  split at low
  · rename_i he
    rw [le_div_iff₀ (by linarith)] at low
    rcases le_total 0 (f b) with hf | hf
    · rw [abs_of_nonneg hf]; linarith
    · have := mul_nonneg h0 (abs_nonneg (f b)); linarith
  · rename_i he
    have hf : f b ≤ 0 := low.trans (div_nonpos_of_nonpos_of_nonneg (not_le.1 he).le (by linarith))
    rw [le_div_iff₀ (by linarith)] at low
    rw [abs_of_nonpos hf]; linarith

/-- A hermitian matrix close to one is positive definite. -/
theorem posDef_near {S : CMat n} (hS : S.IsHermitian) (h : Real.sqrt (∑ i, ∑ j, ‖(S - 1) i j‖ ^ 2) < 1) : S.PosDef := by
  refine Matrix.PosDef.of_dotProduct_mulVec_pos hS fun a ha => ?_
  have h1 := abs_le.1 (form_near S a)
  have hpos : 0 < ∑ i, ‖a i‖ ^ 2 := by
    obtain ⟨i, hi⟩ := Function.ne_iff.1 ha
    exact Finset.sum_pos' (fun _ _ => sq_nonneg _) ⟨i, Finset.mem_univ _, by have := norm_pos_iff.2 hi; positivity⟩
  have h2 : (star a ⬝ᵥ (S *ᵥ a)).im = 0 := by
    have h3 : star (star a ⬝ᵥ (S *ᵥ a)) = star a ⬝ᵥ (S *ᵥ a) := by
      rw [← star_dotProduct, star_mulVec, hS.eq, ← dotProduct_mulVec]
    have := congrArg Complex.im h3
    simp at this
    linarith
  rw [Complex.lt_def]
  refine ⟨?_, h2.symm⟩
  rw [Complex.zero_re]
  nlinarith

theorem off_mem {S : List (CMat n)} {s : CMat n} (h : s ∈ S) : Real.sqrt (∑ i, ∑ j, ‖(s - 1) i j‖ ^ 2) ≤ offNorm S := by
  refine Real.sqrt_le_sqrt ?_
  refine List.single_le_sum ?_ _ (List.mem_map.2 ⟨s, h, rfl⟩)
  intro x hx
  obtain ⟨t, -, rfl⟩ := List.mem_map.1 hx
  exact Finset.sum_nonneg fun _ _ => Finset.sum_nonneg fun _ _ => sq_nonneg _

/-- A `mapM` whose steps all succeed. -/
theorem mapM_all {α β : Type} (f : α → Except Err β) (P : α → β → Prop) (l : List α) (h : ∀ a ∈ l, ∃ b, f a = .ok b ∧ P a b) :
    ∃ r, l.mapM f = .ok r ∧ r.length = l.length ∧ ∀ i (h1 : i < l.length) (h2 : i < r.length), P l[i] r[i] := by
  induction l with
  | nil => exact ⟨[], rfl, rfl, fun i h1 => absurd h1 (by simp)⟩
  | cons a l ih =>
    obtain ⟨b, hb, hp⟩ := h a (by simp)
    obtain ⟨r, hr, hl, hall⟩ := ih fun x hx => h x (List.mem_cons_of_mem _ hx)
    refine ⟨b :: r, ?_, by simp [hl], ?_⟩
    · rw [List.mapM_cons, hb, hr]; rfl
    · intro i h1 h2
      cases i with
      | zero => exact hp
      | succ i => exact hall i (by simpa using h1) (by simpa using h2)

/-- A `mapM` with a first failing step. -/
theorem mapM_fail {α β : Type} (f : α → Except Err β) (l1 : List α) (a : α) (l2 : List α) (h : ∀ x ∈ l1, ∃ b, f x = .ok b) (e : Err) (ha : f a = .error e) :
    (l1 ++ a :: l2).mapM f = .error e := by
  induction l1 with
  | nil => rw [List.nil_append, List.mapM_cons, ha]; rfl
  | cons x l1 ih =>
    obtain ⟨b, hb⟩ := h x (by simp)
    rw [List.cons_append, List.mapM_cons, hb, ih fun y hy => h y (List.mem_cons_of_mem _ hy)]
    rfl

theorem loop_ok {lib : Lib n} (hl : Contract lib) (H S : List (CMat n)) (hlen : H.length ≤ S.length) (hH : ∀ h ∈ H, h.IsHermitian) (hS : ∀ s ∈ S, s.PosDef) :
    ∃ r, loop lib H S = .ok r ∧ r.length = H.length ∧ ∀ i (h1 : i < H.length) (h2 : i < S.length) (h3 : i < r.length),
      TB.Spec.IsGeigh H[i] S[i] r[i].1 r[i].2 := by
  unfold loop
  obtain ⟨r, hr, hrl, hall⟩ := mapM_all (fun i : ℕ => match H[i]?, S[i]? with
    | some h, some s => lib.spEigh h s
    | _, _ => .error .indexError) (fun i r => ∀ (h1 : i < H.length) (h2 : i < S.length), TB.Spec.IsGeigh H[i] S[i] r.1 r.2) (List.range H.length) (by
      intro i hi
      have h1 : i < H.length := List.mem_range.1 hi
      have h2 : i < S.length := by omega
      obtain ⟨r, hr, hg⟩ := hl.sp H[i] S[i] (hH _ (List.getElem_mem h1)) (hS _ (List.getElem_mem h2))
      refine ⟨r, ?_, fun _ _ => hg⟩
      simp only [List.getElem?_eq_getElem h1, List.getElem?_eq_getElem h2]
      exact hr)
  refine ⟨r, hr, by simpa using hrl, fun i h1 h2 h3 => ?_⟩
  have := hall i (by simpa using h1) h3
  simp only [List.getElem_range] at this
  exact this h1 h2

/-- **C125** `geigh` on stacks of hermitian `H` and positive definite `S`: one result per matrix. Where not all overlaps are within `1e-8` of one, these
are exactly the eigenvalues and eigenvectors of the pairs; otherwise the overlap is ignored, which changes an eigenvalue by at most `1e-8` of its size. -/
theorem C125_geigh {lib : Lib n} (hl : Contract lib) (H S : List (CMat n)) (hlen : S.length = H.length) (hH : ∀ h ∈ H, h.IsHermitian) (hS : ∀ s ∈ S, s.PosDef) :
    ∃ r, geigh lib H S = .ok r ∧ r.length = H.length ∧ ∀ i (h1 : i < H.length) (h2 : i < S.length) (h3 : i < r.length),
      (1 / 10 ^ 8 ≤ offNorm S → TB.Spec.IsGeigh H[i] S[i] r[i].1 r[i].2) ∧ (offNorm S < 1 / 10 ^ 8 → TB.Spec.IsGeigh H[i] 1 r[i].1 r[i].2) ∧
        ∀ e V, TB.Spec.IsGeigh H[i] S[i] e V → ∀ b, |r[i].1 b - e b| ≤ 1 / 10 ^ 8 * |e b| := by
  unfold geigh
  by_cases hfast : offNorm S < 1 / 10 ^ 8
  · rw [if_pos hfast]
    obtain ⟨r, hr, hrl, hall⟩ := mapM_all lib.npEigh (fun h r => TB.Spec.IsGeigh h 1 r.1 r.2) H fun h hh => hl.np h (hH h hh)
    refine ⟨r, hr, hrl, fun i h1 h2 h3 => ⟨fun hn => absurd hfast (not_lt.2 hn), fun _ => hall i h1 h3, fun e V g b => ?_⟩⟩
    exact near_one (hall i h1 h3) g (by norm_num) ((off_mem (List.getElem_mem h2)).trans hfast.le) b
  · rw [if_neg hfast]
    obtain ⟨r, hr, hrl, hall⟩ := loop_ok hl H S hlen.ge hH hS
    refine ⟨r, hr, hrl, fun i h1 h2 h3 => ⟨fun _ => hall i h1 h2 h3, fun hn => absurd hn hfast, fun e V g b => ?_⟩⟩
    rw [TB.Opt.geigh_unique (hall i h1 h2 h3) g, sub_self, abs_zero]
    positivity

/-- **C125** `geigvalsh` has no fast path: its numbers are the eigenvalues of the pairs. The eigenvalues of `geigh` differ from them by at most `1e-8` of
their size. -/
theorem C125_geigvalsh {lib : Lib n} (hl : Contract lib) (H S : List (CMat n)) (hlen : S.length = H.length) (hH : ∀ h ∈ H, h.IsHermitian) (hS : ∀ s ∈ S, s.PosDef) :
    ∃ v r, geigvalsh lib H S = .ok v ∧ v.length = H.length ∧ geigh lib H S = .ok r ∧ r.length = H.length ∧
      ∀ i (h1 : i < H.length) (h2 : i < S.length) (h3 : i < v.length) (h4 : i < r.length),
        (∀ e V, TB.Spec.IsGeigh H[i] S[i] e V → v[i] = e) ∧ ∀ b, |r[i].1 b - v[i] b| ≤ 1 / 10 ^ 8 * |v[i] b| := by
  obtain ⟨w, hw, hwl, hwall⟩ := loop_ok hl H S hlen.ge hH hS
  obtain ⟨r, hr, hrl, hrall⟩ := C125_geigh hl H S hlen hH hS
  refine ⟨w.map Prod.fst, r, ?_, by simpa using hwl, hr, hrl, fun i h1 h2 h3 h4 => ?_⟩
  · unfold geigvalsh; rw [hw]; rfl
  · have h5 : i < w.length := by omega
    rw [List.getElem_map]
    exact ⟨fun e V g => TB.Opt.geigh_unique (hwall i h1 h2 h5) g, (hrall i h1 h2 h4).2.2 _ _ (hwall i h1 h2 h5)⟩

/-- **C125** A hermitian overlap that is not positive definite is refused by both with `LinAlgError`, wherever it stands: the fast path is never taken. -/
theorem C125_not_posdef {lib : Lib n} (hl : Contract lib) (H S : List (CMat n)) (hlen : S.length = H.length) (hH : ∀ h ∈ H, h.IsHermitian)
    (hS : ∀ s ∈ S, s.IsHermitian) (hbad : ∃ s ∈ S, ¬ s.PosDef) : geigh lib H S = .error .valueError ∧ geigvalsh lib H S = .error .valueError := by
  classical
  have hslow : ¬ offNorm S < 1 / 10 ^ 8 := by
    intro h
    obtain ⟨s, hs, hn⟩ := hbad
    refine hn (posDef_near (hS s hs) (((off_mem hs).trans_lt h).trans (by norm_num)))
  have hex : ∃ i, ∃ h : i < S.length, ¬ S[i].PosDef := by
    obtain ⟨s, hs, hn⟩ := hbad
    obtain ⟨i, hi, rfl⟩ := List.mem_iff_getElem.1 hs
    exact ⟨i, hi, hn⟩
  obtain ⟨hi, hni⟩ := Nat.find_spec hex
  have hmin : ∀ j, j < Nat.find hex → ∀ h : j < S.length, S[j].PosDef := fun j hj h => by
    have := Nat.find_min hex hj
    push Not at this
    exact this h
  have hloop : loop lib H S = .error .valueError := by
    unfold loop
    have hsplit : List.range H.length = List.range (Nat.find hex) ++ Nat.find hex :: (List.range' (Nat.find hex + 1) (H.length - Nat.find hex - 1)) := by
      rw [List.range_eq_range', List.range_eq_range', ← List.range'_succ]
      have := List.range'_append_1 (s := 0) (m := Nat.find hex) (n := H.length - Nat.find hex - 1 + 1)
      rw [Nat.zero_add] at this
      rw [this]
      congr 1
      omega
    rw [hsplit]
    refine mapM_fail _ _ _ _ (fun j hj => ?_) _ ?_
    · have h1 : j < Nat.find hex := List.mem_range.1 hj
      have h2 : j < S.length := by omega
      have h3 : j < H.length := by omega
      obtain ⟨r, hr, -⟩ := hl.sp H[j] S[j] (hH _ (List.getElem_mem h3)) (hmin j h1 h2)
      refine ⟨r, ?_⟩
      simp only [List.getElem?_eq_getElem h3, List.getElem?_eq_getElem h2]
      exact hr
    · have h3 : Nat.find hex < H.length := by omega
      simp only [List.getElem?_eq_getElem h3, List.getElem?_eq_getElem hi]
      exact hl.bad _ _ (hH _ (List.getElem_mem h3)) (hS _ (List.getElem_mem hi)) hni
  exact ⟨by unfold geigh; rw [if_neg hslow, hloop], by unfold geigvalsh; rw [hloop]; rfl⟩

/-- **C125** Fewer overlaps than Hamiltonians: `geigvalsh` raises `IndexError`, `geigh` only if the overlaps given are not close to one. -/
theorem C125_lengths {lib : Lib n} (hl : Contract lib) (H S : List (CMat n)) (hlen : S.length < H.length) (hH : ∀ h ∈ H, h.IsHermitian) (hS : ∀ s ∈ S, s.PosDef) :
    geigvalsh lib H S = .error .indexError ∧ (1 / 10 ^ 8 ≤ offNorm S → geigh lib H S = .error .indexError) ∧
      (offNorm S < 1 / 10 ^ 8 → ∃ r, geigh lib H S = .ok r ∧ r.length = H.length) := by
  have hloop : loop lib H S = .error .indexError := by
    unfold loop
    have hsplit : List.range H.length = List.range S.length ++ S.length :: (List.range' (S.length + 1) (H.length - S.length - 1)) := by
      rw [List.range_eq_range', List.range_eq_range', ← List.range'_succ]
      have := List.range'_append_1 (s := 0) (m := S.length) (n := H.length - S.length - 1 + 1)
      rw [Nat.zero_add] at this
      rw [this]
      congr 1
      omega
    rw [hsplit]
    refine mapM_fail _ _ _ _ (fun j hj => ?_) _ ?_
    · have h2 : j < S.length := List.mem_range.1 hj
      have h3 : j < H.length := by omega
      obtain ⟨r, hr, -⟩ := hl.sp H[j] S[j] (hH _ (List.getElem_mem h3)) (hS _ (List.getElem_mem h2))
      refine ⟨r, ?_⟩
      simp only [List.getElem?_eq_getElem h3, List.getElem?_eq_getElem h2]
      exact hr
    · simp only [List.getElem?_eq_getElem hlen, List.getElem?_eq_none le_rfl]
  refine ⟨by unfold geigvalsh; rw [hloop]; rfl, fun h => by unfold geigh; rw [if_neg (not_lt.2 h), hloop], fun h => ?_⟩
  unfold geigh
  rw [if_pos h]
  obtain ⟨r, hr, hrl, -⟩ := mapM_all lib.npEigh (fun h r => TB.Spec.IsGeigh h 1 r.1 r.2) H fun h hh => hl.np h (hH h hh)
  exact ⟨r, hr, hrl⟩

/-- **C125** `geigh_grad` on single matrices (no stack): the derivatives of the eigenvalues of `H` if the overlap is one up to `1e-8` and its derivatives
vanish up to `1e-8`; for every other overlap `IndexError`. -/
theorem C125_single {m : ℕ} {lib : Lib n} (hl : Contract lib) (H S : CMat n) (dH dS : Fin m → CMat n) (hH : H.IsHermitian) (hS : S.PosDef) :
    (Real.sqrt (∑ i, ∑ j, ‖(S - 1) i j‖ ^ 2) < 1 / 10 ^ 8 ∧ Real.sqrt (∑ v, ∑ i, ∑ j, ‖dS v i j‖ ^ 2) < 1 / 10 ^ 8 →
      ∃ e V, TB.Spec.IsGeigh H 1 e V ∧ gradOne lib H S dH dS = .ok (e, fun v b => (rot V (dH v) b b).re)) ∧
    (¬ (Real.sqrt (∑ i, ∑ j, ‖(S - 1) i j‖ ^ 2) < 1 / 10 ^ 8 ∧ Real.sqrt (∑ v, ∑ i, ∑ j, ‖dS v i j‖ ^ 2) < 1 / 10 ^ 8) →
      gradOne lib H S dH dS = .error .indexError) := by
  have ho : offNorm [S] = Real.sqrt (∑ i, ∑ j, ‖(S - 1) i j‖ ^ 2) := by simp [offNorm]
  constructor
  · intro h
    obtain ⟨r, hr, hg⟩ := hl.np H hH
    refine ⟨r.1, r.2, hg, ?_⟩
    unfold gradOne
    rw [ho, if_pos h, hr]
    simp [bind, Except.bind, geighGrad, rot]
  · intro h
    obtain ⟨r, hr, -⟩ := hl.sp H S hH hS
    unfold gradOne
    rw [ho, if_neg h, hr]
    rfl

-- two matrices with an overlap of two: the slow path; overlap exactly one: the fast path
example : ∃ (lib : Lib 2) (H S : List (CMat 2)), Contract lib ∧ S.length = H.length ∧ H ≠ [] ∧ (∀ h ∈ H, h.IsHermitian) ∧ (∀ s ∈ S, s.PosDef) ∧ 1 / 10 ^ 8 ≤ offNorm S := by
  obtain ⟨lib, hl⟩ := contract_exists (n := 2)
  have hp : ((2 : ℂ) • (1 : CMat 2)).PosDef := PosDef.one.smul (by norm_num : (0 : ℂ) < 2)
  refine ⟨lib, [1, 1], [(2 : ℂ) • 1, (2 : ℂ) • 1], hl, rfl, by simp, by simp [isHermitian_one], by simpa using hp, ?_⟩
  unfold offNorm
  rw [Real.le_sqrt' (by norm_num)]
  simp [Fin.sum_univ_two, Matrix.sub_apply, Matrix.smul_apply, Matrix.one_apply]
  norm_num
example : ∃ (lib : Lib 2) (H S : List (CMat 2)), Contract lib ∧ S.length = H.length ∧ (∀ h ∈ H, h.IsHermitian) ∧ (∀ s ∈ S, s.IsHermitian) ∧ ∃ s ∈ S, ¬ s.PosDef := by
  obtain ⟨lib, hl⟩ := contract_exists (n := 2)
  exact ⟨lib, [1, 1], [1, 0], hl, rfl, by simp [isHermitian_one], by simp [isHermitian_one], 0, by simp, fun h => by simpa using h.det_pos⟩
example : ∃ (lib : Lib 2) (H S : List (CMat 2)), Contract lib ∧ S.length < H.length ∧ (∀ h ∈ H, h.IsHermitian) ∧ (∀ s ∈ S, s.PosDef) ∧ offNorm S < 1 / 10 ^ 8 := by
  obtain ⟨lib, hl⟩ := contract_exists (n := 2)
  exact ⟨lib, [1, 1], [1], hl, by simp, by simp [isHermitian_one], by simpa using PosDef.one, by simp [offNorm]⟩

end TB.PropsGeigh
