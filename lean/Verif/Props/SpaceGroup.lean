import Verif.Lemmas.SpaceGroup
import Verif.Props.SymmetryDiv

/-!
# Property C102: space groups, point groups and the `projective` flag
-/

set_option linter.unusedSectionVars false

namespace TB
open Spec

variable {K : Type} [Field K] [LinearOrder K] [IsStrictOrderedRing K] {d : ℕ}

/-- **C102** `space_group` keeps a list of affine (or dual affine) operations as it is, marked as projective; lists of `dim × dim` matrices go to the
constructor without the mark, other sizes raise `AssertionError`, an empty list `IndexError`. -/
theorem C102_space_group (d : ℕ) :
    (∀ S : List (Mat K (d + 1)), S.head? = some 1 → (∀ s ∈ S, |s.det| = 1) → (∀ s ∈ S, s (Fin.last d) (Fin.last d) = 1) →
      ∃ σ : PSym K (d + 1), spaceGroup S d = .ok σ ∧ σ.S = S ∧ σ.ops = S ∧ σ.len = S.length ∧ σ.projective = true ∧ σ.spaceDim = d ∧
        σ.copy = .ok σ) ∧
    (∀ S : List (Mat K d), (∃ σ, spaceGroup S d = .ok σ) ↔ S.head? = some 1 ∧ ∀ s ∈ S, |s.det| = 1) ∧
    (∀ (S : List (Mat K d)) (σ : PSym K d), spaceGroup S d = .ok σ →
      (∀ x, x ∈ σ.ops ↔ x ∈ S) ∧ σ.projective = false ∧ σ.spaceDim = d) ∧
    (∀ (n : ℕ) (S : List (Mat K n)), S ≠ [] → n ≠ d → n ≠ d + 1 → spaceGroup S d = .error .assertionError) ∧
    (∀ n : ℕ, spaceGroup ([] : List (Mat K n)) d = .error .indexError) := by
  refine ⟨?_, ?_, ?_, ?_, fun n => if_pos rfl⟩
  · intro S h1 hdet hc
    have hne : S ≠ [] := by rintro rfl; simp at h1
    have hm : mkPSym S false true = .ok ⟨⟨S, false⟩, true⟩ := by rw [mkPSym, mkSym_corner h1 hdet hc]
    refine ⟨⟨⟨S, false⟩, true⟩, ?_, rfl, by simp [Sym.ops], by simp [Sym.len], rfl, by simp [PSym.spaceDim], hm⟩
    rw [spaceGroup, if_neg hne, if_pos (Or.inr rfl), decide_eq_true rfl, hm]
  · intro S
    rw [← mkSym_ok_iff (inv := false), spaceGroup]
    by_cases hne : S = []
    · subst hne; simp [mkSym]
    · rw [if_neg hne, if_pos (Or.inl rfl), mkPSym]
      cases mkSym S false with
      | error e => simp
      | ok σ => simp
  · intro S σ h
    rw [spaceGroup] at h
    by_cases hne : S = []
    · rw [if_pos hne] at h; simp at h
    · rw [if_neg hne, if_pos (Or.inl rfl), mkPSym] at h
      cases hk : mkSym S false with
      | error e => rw [hk] at h; simp at h
      | ok τ =>
        rw [hk] at h
        have h' := Except.ok.inj h
        subst h'
        refine ⟨fun x => ?_, by simp, by simp [PSym.spaceDim]⟩
        rw [mkSym_mem_ops hk]; simp
  · intro n S hne h1 h2
    rw [spaceGroup, if_neg hne, if_neg (by tauto)]

theorem head_linear {S : List (Mat K (d + 1))} (h1 : S.head? = some 1) : (S.map linear).head? = some 1 := by
  rw [List.head?_map, h1, Option.map_some, ← aff_one, linear_aff]

/-- **C102** `point_group` of a list of affine operations (translation in the last column, or in the last row as returned by `read_bands_crystal`)
always succeeds and has exactly the linear parts as operations; if the list is a space group modulo lattice translations these form a group. -/
theorem C102_point_group (S : List (Mat K (d + 1))) (h1 : S.head? = some 1)
    (hS : (∀ s ∈ S, ∃ R t, s = aff R t) ∨ ∀ s ∈ S, ∃ R r, s = coaff R r) (hdet : ∀ s ∈ S, |s.det| = 1) :
    ∃ σ : PSym K d, pointGroup S d = .ok ⟨d, σ⟩ ∧ σ.projective = false ∧ (∀ x, x ∈ σ.ops ↔ ∃ s ∈ S, x = linear s) ∧
      (∀ L, ClosedMod L S → (∀ s ∈ S, ∃ R t, s = aff R t) → IsMatGroup σ.ops) ∧
      (∀ L, ClosedMod L (S.map Matrix.transpose) → (∀ s ∈ S, ∃ R r, s = coaff R r) → IsMatGroup σ.ops) := by
  have hlin : ∀ s ∈ S, |(linear s).det| = 1 ∧ s (Fin.last d) (Fin.last d) = 1 := by
    intro s hs
    rcases hS with h | h
    · obtain ⟨R, t, rfl⟩ := h s hs
      have := hdet _ hs
      rw [det_aff] at this
      exact ⟨by rwa [linear_aff], aff_ll _ _⟩
    · obtain ⟨R, t, rfl⟩ := h s hs
      have := hdet _ hs
      rw [det_coaff] at this
      exact ⟨by rwa [linear_coaff], coaff_ll _ _⟩
  have hdl : ∀ x ∈ S.map linear, |x.det| = 1 := by
    intro x hx
    obtain ⟨s, hs, rfl⟩ := List.mem_map.1 hx
    exact (hlin s hs).1
  obtain ⟨σ, hσ⟩ := (mkSym_ok_iff (inv := false)).2 ⟨head_linear h1, hdl⟩
  have hne : S ≠ [] := by rintro rfl; simp at h1
  have hops : ∀ x, x ∈ σ.ops ↔ ∃ s ∈ S, x = linear s := by
    intro x
    rw [mkSym_mem_ops hσ]
    simp only [List.mem_map, Bool.false_eq_true, false_and, or_false]
    exact ⟨fun ⟨s, hs, h⟩ => ⟨s, hs, h.symm⟩, fun ⟨s, hs, h⟩ => ⟨s, hs, h.symm⟩⟩
  have h1m : (1 : Mat K d) ∈ σ.ops := mem_ops.2 (Or.inl (Sym.Constructed.one_mem ⟨_, _, hσ⟩))
  have hgrp : (∀ a ∈ S, ∀ b ∈ S, ∃ c ∈ S, linear a * linear b = linear c) → IsMatGroup σ.ops := by
    intro hcl
    have hmul : ∀ a ∈ σ.ops, ∀ b ∈ σ.ops, a * b ∈ σ.ops := by
      intro a ha b hb
      obtain ⟨s, hs, rfl⟩ := (hops a).1 ha
      obtain ⟨s', hs', rfl⟩ := (hops b).1 hb
      obtain ⟨c, hc, h⟩ := hcl s hs s' hs'
      exact (hops _).2 ⟨c, hc, h⟩
    exact ⟨h1m, hmul, inv_mem_of_closed hmul h1m (Sym.Constructed.det_ops ⟨_, _, hσ⟩)⟩
  refine ⟨⟨σ, false⟩, ?_, rfl, hops, ?_, ?_⟩
  · rw [pointGroup, spaceGroup, if_neg hne, if_pos (Or.inr rfl), mkPSym, mkSym_corner h1 hdet fun s hs => (hlin s hs).2]
    simp only [PSym.ignoreTranslation, decide_true, if_true]
    have : mkPSym (S.map cut) false false = .ok (⟨σ, false⟩ : PSym K d) := by
      rw [mkPSym]
      change (match mkSym (S.map linear) false with
        | .error e => Except.error e
        | .ok σ => .ok (⟨σ, false⟩ : PSym K d)) = _
      rw [hσ]
    rw [this]
    rfl
  · intro L hL hA
    refine hgrp fun a ha b hb => ?_
    obtain ⟨c, hc, l, -, h⟩ := hL a ha b hb
    obtain ⟨Ra, ta, rfl⟩ := hA a ha
    obtain ⟨Rb, tb, rfl⟩ := hA b hb
    obtain ⟨Rc, tc, rfl⟩ := hA c hc
    refine ⟨_, hc, ?_⟩
    rw [aff_mul, aff_mul, aff_inj] at h
    rw [linear_aff, linear_aff, linear_aff, h.1, one_mul]
  · intro L hL hA
    refine hgrp fun a ha b hb => ?_
    obtain ⟨c', hc', l, -, h⟩ := hL b.transpose (List.mem_map.2 ⟨b, hb, rfl⟩) a.transpose (List.mem_map.2 ⟨a, ha, rfl⟩)
    obtain ⟨c, hc, rfl⟩ := List.mem_map.1 hc'
    obtain ⟨Ra, ta, rfl⟩ := hA a ha
    obtain ⟨Rb, tb, rfl⟩ := hA b hb
    obtain ⟨Rc, tc, rfl⟩ := hA c hc
    refine ⟨_, hc, ?_⟩
    rw [coaff_transpose, coaff_transpose, coaff_transpose, aff_mul, aff_mul, aff_inj, ← Matrix.transpose_mul, one_mul] at h
    rw [linear_coaff, linear_coaff, linear_coaff]
    exact Matrix.transpose_injective h.1

/-- **C102** (defect) Operations which differ by a translation only, as in a centred cell, are counted several times by the point group. -/
theorem C102_centred_defect (S : List (Mat K (d + 1))) (σ : PSym K d) (h : pointGroup S d = .ok ⟨d, σ⟩) (h1 : S.head? = some 1)
    (hc : ∀ s ∈ S, s (Fin.last d) (Fin.last d) = 1) (hdet : ∀ s ∈ S, |s.det| = 1) (i j : ℕ) (hi : i < S.length) (hj : j < S.length) (hij : i ≠ j)
    (he : linear S[i] = linear S[j]) (hp : 0 < (linear S[i]).det) : distinctCount σ.ops < σ.len := by
  have hne : S ≠ [] := by rintro rfl; simp at h1
  rw [pointGroup, spaceGroup, if_neg hne, if_pos (Or.inr rfl), mkPSym, mkSym_corner h1 hdet hc] at h
  simp only [PSym.ignoreTranslation, decide_true, if_true, mkPSym] at h
  cases hk : mkSym (S.map cut) false with
  | error e => rw [hk] at h; simp at h
  | ok τ =>
    rw [hk] at h
    have h' := Except.ok.inj h
    have h'' : (⟨τ, false⟩ : PSym K d) = σ := eq_of_heq (Sigma.mk.inj h').2
    subst h''
    have hdup : ¬ (S.map (linear : Mat K (d + 1) → Mat K d)).Nodup := by
      intro hnd
      rw [List.nodup_iff_injective_getElem] at hnd
      have := @hnd ⟨i, by simpa using hi⟩ ⟨j, by simpa using hj⟩ (by simpa using he)
      simp at this
      exact hij this
    have hdupf : ¬ ((S.map (linear : Mat K (d + 1) → Mat K d)).filter fun s => decide (0 < s.det)).Nodup := by
      intro hnd
      have hcount := List.nodup_iff_count_le_one.1 hnd (linear S[i])
      rw [List.count_filter (by simpa using hp)] at hcount
      have hle : 2 ≤ (S.map (linear : Mat K (d + 1) → Mat K d)).count (linear S[i]) := by
        have hdu : (List.Duplicate (linear S[i]) (S.map (linear : Mat K (d + 1) → Mat K d))) := by
          rcases Nat.lt_or_gt_of_ne hij with hlt | hlt
          · exact List.duplicate_iff_exists_distinct_get.2 ⟨⟨i, by simpa using hi⟩, ⟨j, by simpa using hj⟩, hlt, by simp, by simpa using he⟩
          · exact List.duplicate_iff_exists_distinct_get.2 ⟨⟨j, by simpa using hj⟩, ⟨i, by simpa using hi⟩, hlt, by simpa using he, by simp⟩
        exact List.duplicate_iff_two_le_count.1 hdu
      omega
    have hS : ¬ τ.ops.Nodup := by
      intro hnd
      have hτ : ¬ τ.S.Nodup := by
        obtain ⟨-, -, h' | h' | h' | h'⟩ := mkSym_cases hk
        · rw [h'.2.2]; exact hdupf
        · rw [h'.2.2]; exact hdup
        · exact absurd h'.2.1 (by simp)
        · rw [h'.2.2]; exact hdup
      apply hτ
      unfold Sym.ops at hnd
      split_ifs at hnd
      · exact (List.nodup_append.1 hnd).1
      · exact hnd
    rw [← length_ops]
    rw [distinctCount]
    refine lt_of_le_of_ne (List.toFinset_card_le _) fun h0 => hS ?_
    rw [List.card_toFinset] at h0
    exact List.dedup_eq_self.1 ((List.dedup_sublist τ.ops).eq_of_length h0)

theorem subgroup_list {S : List (Mat K (d + 1))} (h1 : S.head? = some 1) (hdet : ∀ s ∈ S, |s.det| = 1)
    (hc : ∀ s ∈ S, s (Fin.last d) (Fin.last d) = 1) :
    (⟨S, false⟩ : Sym K (d + 1)).subgroup untranslated =
      match (⟨S.filter untranslated, false⟩ : Sym K (d + 1)).check with
      | .error e => .error e
      | .ok false => .error .assertionError
      | .ok true => .ok ⟨S.filter untranslated, false⟩ := by
  cases S with
  | nil => simp at h1
  | cons s0 rest =>
    obtain rfl : s0 = 1 := by simpa using h1
    have hu : untranslated (1 : Mat K (d + 1)) = true := by
      rw [untranslated_iff, ← aff_one]; intro i; simp
    have hf : (1 :: rest.filter fun s => decide (untranslated s = untranslated (1 : Mat K (d + 1)))) = (1 :: rest).filter untranslated := by
      rw [List.filter_cons_of_pos hu, hu]
      congr 2
      funext s
      simp
    have hm : mkSym ((1 :: rest).filter untranslated) false = .ok ⟨(1 :: rest).filter untranslated, false⟩ := by
      refine mkSym_corner ?_ (fun s hs => hdet s (List.mem_filter.1 hs).1) (fun s hs => hc s (List.mem_filter.1 hs).1)
      rw [List.filter_cons_of_pos hu]; rfl
    unfold Sym.subgroup
    simp only [Bool.false_and]
    rw [hf, hm]
    rfl

/-- **C102** `ignore_translation` of a projective symmetry returned by the constructor, with or without `inversion=True`, succeeds and has exactly the linear
parts of the operations as operations; a symmetry which is not projective is returned as it is. -/
theorem C102_ignore_translation (S : List (Mat K (d + 1))) (inv : Bool) (hS : ∀ s ∈ S, ∃ R t, s = aff R t) (σ : PSym K (d + 1)) :
    (mkPSym S inv true = .ok σ →
      ∃ τ : PSym K d, σ.ignoreTranslation = .ok ⟨d, τ⟩ ∧ τ.projective = false ∧ ∀ x, x ∈ τ.ops ↔ ∃ M ∈ σ.ops, x = linear M) ∧
    (σ.projective = false → σ.ignoreTranslation = .ok ⟨d + 1, σ⟩) := by
  constructor
  · intro h
    rw [mkPSym] at h
    cases hk : mkSym S inv with
    | error e => rw [hk] at h; cases h
    | ok ρ =>
      rw [hk] at h
      cases h
      have hdet := (mkSym_ok_iff.1 ⟨ρ, hk⟩).2
      have hneg : ∀ M : Mat K (d + 1), linear (-M) = -linear M := fun M => rfl
      have hlin : ∀ M ∈ ρ.ops, |(linear M).det| = 1 := by
        intro M hM
        have haff : ∀ s ∈ S, |(linear s).det| = 1 := by
          intro s hs
          obtain ⟨R, t, rfl⟩ := hS s hs
          have := hdet _ hs
          rw [det_aff] at this
          rwa [linear_aff]
        rcases (mkSym_mem_ops hk M).1 hM with h | ⟨-, h⟩
        · exact haff M h
        · have := haff _ h
          rw [hneg, Matrix.det_neg, abs_mul, abs_pow, abs_neg, abs_one, one_pow, one_mul] at this
          exact this
      have hhead : (ρ.S.map linear).head? = some 1 := head_linear (by
        obtain ⟨h1, hd, h' | h' | h' | h'⟩ := mkSym_cases hk
        · rw [h'.2.2]
          cases S with
          | nil => simp at h1
          | cons s t =>
            simp only [List.head?_cons, Option.some.injEq] at h1
            subst h1
            simp
        · rw [h'.2.2]; exact h1
        · rw [h'.2.2.2]
          cases S with
          | nil => simp at h1
          | cons s t => simpa using h1
        · rw [h'.2.2]; exact h1)
      obtain ⟨τ, hτ⟩ := (mkSym_ok_iff (inv := ρ.inversion)).2 ⟨hhead, by
        intro x hx
        obtain ⟨M, hM, rfl⟩ := List.mem_map.1 hx
        exact hlin M (mem_ops.2 (Or.inl hM))⟩
      refine ⟨⟨τ, false⟩, ?_, rfl, ?_⟩
      · simp only [PSym.ignoreTranslation, if_true]
        have : mkPSym (ρ.S.map cut) ρ.inversion false = .ok (⟨τ, false⟩ : PSym K d) := by
          rw [mkPSym]
          change (match mkSym (ρ.S.map linear) ρ.inversion with
            | .error e => Except.error e
            | .ok σ => .ok (⟨σ, false⟩ : PSym K d)) = _
          rw [hτ]
        rw [this]
        rfl
      · intro x
        show x ∈ τ.ops ↔ ∃ M ∈ ρ.ops, x = linear M
        rw [mkSym_mem_ops hτ]
        constructor
        · rintro (h | ⟨hi, h⟩)
          · obtain ⟨M, hM, rfl⟩ := List.mem_map.1 h
            exact ⟨M, mem_ops.2 (Or.inl hM), rfl⟩
          · obtain ⟨M, hM, hx⟩ := List.mem_map.1 h
            exact ⟨-M, mem_ops.2 (Or.inr ⟨hi, by rwa [neg_neg]⟩), by rw [hneg, hx, neg_neg]⟩
        · rintro ⟨M, hM, rfl⟩
          rcases mem_ops.1 hM with h | ⟨hi, h⟩
          · exact Or.inl (List.mem_map.2 ⟨M, h, rfl⟩)
          · exact Or.inr ⟨hi, List.mem_map.2 ⟨-M, h, hneg M⟩⟩
  · intro h
    rw [PSym.ignoreTranslation, if_neg (by rw [h]; exact Bool.false_ne_true)]

/-- C102_ignore_translation: in the plane the list of the identity with `inversion=True` gives the identity and the half turn. -/
example : ∃ (σ : PSym ℚ 3) (τ : PSym ℚ 2), mkPSym ([1] : List (Mat ℚ 3)) true true = .ok σ ∧ σ.ignoreTranslation = .ok ⟨2, τ⟩ ∧ (1 : Mat ℚ 2) ∈ τ.ops ∧
    (-1 : Mat ℚ 2) ∈ τ.ops := by
  obtain ⟨ρ, hρ⟩ := (mkSym_ok_iff (S := ([1] : List (Mat ℚ 3))) (inv := true)).2 ⟨rfl, by simp⟩
  have hl : linear (1 : Mat ℚ 3) = 1 := (congrArg linear aff_one.symm).trans (linear_aff 1 0)
  have hm : mkPSym ([1] : List (Mat ℚ 3)) true true = .ok ⟨ρ, true⟩ := by rw [mkPSym, hρ]
  obtain ⟨τ, h1, -, h2⟩ := (C102_ignore_translation (d := 2) [1] true (fun s hs => ⟨1, 0, by rw [List.mem_singleton.1 hs, aff_one]⟩) _).1 hm
  refine ⟨_, τ, hm, h1, (h2 1).2 ⟨1, (mkSym_mem_ops hρ 1).2 (Or.inl (by simp)), ?_⟩, (h2 (-1)).2 ⟨-1, (mkSym_mem_ops hρ (-1)).2 (Or.inr ⟨rfl, by simp⟩), ?_⟩⟩
  · exact hl.symm
  · rw [show linear (-1 : Mat ℚ 3) = -linear (1 : Mat ℚ 3) from rfl, hl]

/-- **C102** `strict_point_group` of a list of affine operations returns exactly when the operations without translation are closed under
multiplication (and fewer than 200); it then has their linear parts as operations, in the given order and without inversion flag.  Otherwise it raises
`AssertionError` or `ValueError`; without projective part it always raises `AssertionError`, although the docstring promises `self`. -/
theorem C102_strict_point_group (S : List (Mat K (d + 1))) (h1 : S.head? = some 1) (hnd : S.Nodup)
    (hS : (∀ s ∈ S, ∃ R t, s = aff R t)) (hdet : ∀ s ∈ S, |s.det| = 1) :
    (((∀ R R', aff R 0 ∈ S → aff R' 0 ∈ S → aff (R * R') 0 ∈ S) ∧ {R | aff R 0 ∈ S}.ncard < 200) →
      ∃ σ : PSym K d, strictPointGroup S d = .ok ⟨d, σ⟩ ∧ σ.projective = false ∧ σ.inversion = false ∧ σ.S.Nodup ∧
        (∀ R, R ∈ σ.ops ↔ aff R 0 ∈ S) ∧ σ.S.Sublist (S.map linear) ∧ IsMatGroup σ.ops) ∧
    (¬ ((∀ R R', aff R 0 ∈ S → aff R' 0 ∈ S → aff (R * R') 0 ∈ S) ∧ {R | aff R 0 ∈ S}.ncard < 200) →
      strictPointGroup S d = .error .assertionError ∨ strictPointGroup S d = .error .valueError) ∧
    (∀ L, ClosedMod L S → (∀ l ∈ L, -l ∈ L) → (∀ R, ∀ t ∈ L, aff R t ∈ S → t = 0) →
      ∀ R R', aff R 0 ∈ S → aff R' 0 ∈ S → aff (R * R') 0 ∈ S) ∧
    (∀ (T : List (Mat K d)) (σ : PSym K d), spaceGroup T d = .ok σ → strictPointGroup T d = .error .assertionError) := by
  have hne : S ≠ [] := by rintro rfl; simp at h1
  have hc : ∀ s ∈ S, s (Fin.last d) (Fin.last d) = 1 := by
    intro s hs; obtain ⟨R, t, rfl⟩ := hS s hs; exact aff_ll _ _
  have hmem : ∀ s, s ∈ S.filter untranslated ↔ ∃ R, s = aff R 0 ∧ aff R 0 ∈ S := by
    intro s
    rw [List.mem_filter, untranslated_iff]
    constructor
    · rintro ⟨hs, h⟩
      obtain ⟨R, t, rfl⟩ := hS s hs
      have ht : t = 0 := by funext i; simpa using (h i).1
      subst ht
      exact ⟨R, rfl, hs⟩
    · rintro ⟨R, rfl, hs⟩
      exact ⟨hs, fun i => by simp⟩
  have hu1 : (1 : Mat K (d + 1)) ∈ S.filter untranslated := (hmem _).2 ⟨1, aff_one.symm, by rw [aff_one]; exact List.mem_of_mem_head? h1⟩
  have hh : (S.filter untranslated).head? = some 1 := by
    cases S with
    | nil => simp at h1
    | cons s0 rest =>
      obtain rfl : s0 = 1 := by simpa using h1
      have hu : untranslated (1 : Mat K (d + 1)) = true := (List.mem_filter.1 hu1).2
      rw [List.filter_cons_of_pos hu]; rfl
  have hm : mkSym (S.filter untranslated) false = .ok ⟨S.filter untranslated, false⟩ :=
    mkSym_corner hh (fun s hs => hdet s (List.mem_filter.1 hs).1) (fun s hs => hc s (List.mem_filter.1 hs).1)
  have hcheck := C17_check (⟨S.filter untranslated, false⟩ : Sym K (d + 1)) ⟨_, _, hm⟩ (hnd.filter _)
  have hlen : {R | aff R (0 : Fin d → K) ∈ S}.ncard = (S.filter untranslated).length := by
    have hset : {R | aff R (0 : Fin d → K) ∈ S} = (((S.filter untranslated).map linear).toFinset : Set (Mat K d)) := by
      ext R
      simp only [Set.mem_ofPred_eq, List.coe_toFinset, List.mem_map]
      constructor
      · intro h; exact ⟨aff R 0, (hmem _).2 ⟨R, rfl, h⟩, linear_aff _ _⟩
      · rintro ⟨s, hs, rfl⟩
        obtain ⟨R, rfl, h⟩ := (hmem _).1 hs
        rwa [linear_aff]
    have hlnd : ((S.filter untranslated).map (linear : Mat K (d + 1) → Mat K d)).Nodup := by
      refine List.Nodup.map_on ?_ (hnd.filter _)
      intro a ha b hb hab
      obtain ⟨R, rfl, -⟩ := (hmem _).1 ha
      obtain ⟨R', rfl, -⟩ := (hmem _).1 hb
      rw [linear_aff, linear_aff] at hab
      rw [hab]
    rw [hset, Set.ncard_coe_finset, List.toFinset_card_of_nodup hlnd, List.length_map]
  have hiff : ((∀ a ∈ S.filter untranslated, ∀ b ∈ S.filter untranslated, a * b ∈ S.filter untranslated) ∧
      (S.filter untranslated).length < 200) ↔
      ((∀ R R', aff R (0 : Fin d → K) ∈ S → aff R' 0 ∈ S → aff (R * R') 0 ∈ S) ∧ {R | aff R (0 : Fin d → K) ∈ S}.ncard < 200) := by
    rw [hlen]
    refine and_congr_left fun _ => ⟨?_, ?_⟩
    · intro h R R' hR hR'
      obtain ⟨R2, h2, h3⟩ := (hmem _).1 (h _ ((hmem _).2 ⟨R, rfl, hR⟩) _ ((hmem _).2 ⟨R', rfl, hR'⟩))
      rw [aff_mul, aff_inj] at h2
      rw [h2.1]; exact h3
    · intro h a ha b hb
      obtain ⟨R, rfl, hR⟩ := (hmem _).1 ha
      obtain ⟨R', rfl, hR'⟩ := (hmem _).1 hb
      refine (hmem _).2 ⟨R * R', ?_, h R R' hR hR'⟩
      rw [aff_mul, Matrix.mulVec_zero, add_zero]
  have hmain : strictPointGroup S d = match (⟨S.filter untranslated, false⟩ : Sym K (d + 1)).check with
      | .error e => .error e
      | .ok false => .error .assertionError
      | .ok true => .ok ⟨d, ⟨⟨(S.filter untranslated).map linear, false⟩, false⟩⟩ := by
    rw [strictPointGroup, spaceGroup, if_neg hne, if_pos (Or.inr rfl), mkPSym, mkSym_corner h1 hdet hc]
    simp only [PSym.removeTranslation, decide_true, if_true]
    rw [subgroup_list h1 hdet hc]
    generalize (⟨S.filter untranslated, false⟩ : Sym K (d + 1)).check = c
    cases c with
    | error e => rfl
    | ok b => cases b <;> rfl
  refine ⟨?_, ?_, ?_, ?_⟩
  · intro h
    rw [hmain, hcheck.2 (hiff.2 h)]
    have hops : ∀ R, R ∈ (S.filter untranslated).map (linear : Mat K (d + 1) → Mat K d) ↔ aff R (0 : Fin d → K) ∈ S := by
      intro R
      rw [List.mem_map]
      constructor
      · rintro ⟨s, hs, rfl⟩
        obtain ⟨R, rfl, h⟩ := (hmem _).1 hs
        rwa [linear_aff]
      · intro h; exact ⟨_, (hmem _).2 ⟨R, rfl, h⟩, linear_aff _ _⟩
    refine ⟨⟨⟨(S.filter untranslated).map linear, false⟩, false⟩, rfl, rfl, rfl, ?_, ?_, ?_, ?_⟩
    · refine List.Nodup.map_on ?_ (hnd.filter _)
      intro a ha b hb hab
      obtain ⟨R, rfl, -⟩ := (hmem _).1 ha
      obtain ⟨R', rfl, -⟩ := (hmem _).1 hb
      rw [linear_aff, linear_aff] at hab
      rw [hab]
    · intro R
      simpa [Sym.ops] using hops R
    · exact List.filter_sublist.map _
    · have hone : (1 : Mat K d) ∈ (S.filter untranslated).map (linear : Mat K (d + 1) → Mat K d) := by
        rw [hops, aff_one]; exact List.mem_of_mem_head? h1
      have hmul : ∀ a ∈ (S.filter untranslated).map (linear : Mat K (d + 1) → Mat K d),
          ∀ b ∈ (S.filter untranslated).map (linear : Mat K (d + 1) → Mat K d),
          a * b ∈ (S.filter untranslated).map (linear : Mat K (d + 1) → Mat K d) := by
        intro a ha b hb
        rw [hops] at ha hb ⊢
        exact h.1 a b ha hb
      have hd : ∀ a ∈ (S.filter untranslated).map (linear : Mat K (d + 1) → Mat K d), |a.det| = 1 := by
        intro a ha
        rw [hops] at ha
        have := hdet _ ha
        rwa [det_aff] at this
      have := inv_mem_of_closed hmul hone hd
      simpa [Sym.ops] using (⟨hone, hmul, this⟩ : IsMatGroup _)
  · intro h
    rw [hmain]
    cases hk : (⟨S.filter untranslated, false⟩ : Sym K (d + 1)).check with
    | error e =>
      right
      unfold Sym.check at hk
      cases hg : fromGenerator (S.filter untranslated) false with
      | error e' =>
        simp only [hg] at hk
        have := fromGenerator_error (List.ne_nil_of_mem hu1) hg
        rw [this] at hk
        rw [← hk]
      | ok τ => simp only [hg] at hk; simp at hk
    | ok b =>
      cases b with
      | false => left; rfl
      | true => exact absurd (hiff.1 (hcheck.1 hk)) h
  · intro L hL hneg hred R R' hR hR'
    obtain ⟨c, hcS, l, hl, h⟩ := hL _ hR _ hR'
    obtain ⟨Rc, tc, rfl⟩ := hS c hcS
    rw [aff_mul, aff_mul, aff_inj, Matrix.mulVec_zero, add_zero, Matrix.one_mulVec, one_mul] at h
    have htc : tc = -l := (eq_neg_of_add_eq_zero_left h.2.symm)
    have h0 := hred Rc tc (htc ▸ hneg l hl) hcS
    rw [h.1, ← h0]; exact hcS
  · intro T σ h
    have := ((C102_space_group (K := K) d).2.2.1 T σ h).2.1
    rw [strictPointGroup, h]
    simp [PSym.removeTranslation, this]

/-- **C102** (defect) For a centrosymmetric group without translations in odd dimension both point groups have the same operations but do not compare
equal: `strict_point_group` leaves the inversion among the matrices and its flag unset. -/
theorem C102_inversion_defect (hd : d % 2 = 1) (G : List (Mat K d)) (h1 : G.head? = some 1) (hnd : G.Nodup) (hG : IsMatGroup G)
    (hlen : G.length < 200) (hdet : ∀ R ∈ G, |R.det| = 1) (hinv : -1 ∈ G) :
    ∃ σ τ : PSym K d, pointGroup (G.map fun R => aff R 0) d = .ok ⟨d, σ⟩ ∧ strictPointGroup (G.map fun R => aff R 0) d = .ok ⟨d, τ⟩ ∧
      (∀ R, R ∈ σ.ops ↔ R ∈ G) ∧ (∀ R, R ∈ τ.ops ↔ R ∈ G) ∧ σ.inversion = true ∧ τ.inversion = false ∧
      σ.toSym.eq τ.toSym = false ∧ τ.toSym.eq σ.toSym = false := by
  have hmem : ∀ R, aff R (0 : Fin d → K) ∈ G.map (fun R => aff R 0) ↔ R ∈ G := by
    intro R
    rw [List.mem_map]
    constructor
    · rintro ⟨R', h, he⟩; rw [aff_inj] at he; rw [← he.1]; exact h
    · intro h; exact ⟨R, h, rfl⟩
  have hh : (G.map fun R => aff R (0 : Fin d → K)).head? = some 1 := by rw [List.head?_map, h1, Option.map_some, aff_one]
  have hA : ∀ s ∈ G.map (fun R => aff R (0 : Fin d → K)), ∃ R t, s = aff R t := by
    intro s hs; obtain ⟨R, -, rfl⟩ := List.mem_map.1 hs; exact ⟨R, 0, rfl⟩
  have hD : ∀ s ∈ G.map (fun R => aff R (0 : Fin d → K)), |s.det| = 1 := by
    intro s hs; obtain ⟨R, hR, rfl⟩ := List.mem_map.1 hs; rw [det_aff]; exact hdet R hR
  have hN : (G.map fun R => aff R (0 : Fin d → K)).Nodup := hnd.map_on fun a _ b _ h => (aff_inj.1 h).1
  have hset : {R | aff R (0 : Fin d → K) ∈ G.map fun R => aff R 0} = (G.toFinset : Set (Mat K d)) := by
    ext R; simp only [Set.mem_ofPred_eq, List.coe_toFinset]; exact hmem R
  obtain ⟨σ, hσ, -, hops, -, -⟩ := C102_point_group _ hh (Or.inl hA) hD
  obtain ⟨τ, hτ, -, hτi, -, hτo, -, -⟩ := (C102_strict_point_group _ hh hN hA hD).1 ⟨by
    intro R R' hR hR'
    rw [hmem] at hR hR' ⊢
    exact hG.mul_mem R hR R' hR', by
    rw [hset, Set.ncard_coe_finset, List.toFinset_card_of_nodup hnd]; exact hlen⟩
  have hso : ∀ R, R ∈ σ.ops ↔ R ∈ G := by
    intro R
    rw [hops]
    constructor
    · rintro ⟨s, hs, rfl⟩
      obtain ⟨R, hR, rfl⟩ := List.mem_map.1 hs
      rwa [linear_aff]
    · intro h; exact ⟨_, (hmem R).2 h, (linear_aff _ _).symm⟩
  have hi : σ.inversion = true := by
    have hne : (G.map fun R => aff R (0 : Fin d → K)) ≠ [] := by intro h; rw [h] at hh; simp at hh
    rw [pointGroup, spaceGroup, if_neg hne, if_pos (Or.inr rfl), mkPSym, mkSym_corner hh hD fun s hs => by
      obtain ⟨R, t, rfl⟩ := hA s hs; exact aff_ll _ _] at hσ
    simp only [PSym.ignoreTranslation, decide_true, if_true, mkPSym] at hσ
    cases hk : mkSym ((G.map fun R => aff R (0 : Fin d → K)).map cut) false with
    | error e => rw [hk] at hσ; simp at hσ
    | ok ρ =>
      rw [hk] at hσ
      have h'' : (⟨ρ, false⟩ : PSym K d) = σ := eq_of_heq (Sigma.mk.inj (Except.ok.inj hσ)).2
      rw [← h'']
      have hcl : ∀ s ∈ (G.map fun R => aff R (0 : Fin d → K)).map cut, s ∈ ((G.map fun R => aff R (0 : Fin d → K)).map cut).map (fun s => -s) := by
        have hgl : ∀ R, R ∈ (G.map fun R => aff R (0 : Fin d → K)).map cut ↔ R ∈ G := by
          intro R
          rw [List.map_map, List.mem_map]
          constructor
          · rintro ⟨R', h, rfl⟩; rwa [Function.comp_apply, cut_eq_linear, linear_aff]
          · intro h; exact ⟨R, h, by rw [Function.comp_apply, cut_eq_linear, linear_aff]⟩
        intro s hs
        rw [hgl] at hs
        refine List.mem_map.2 ⟨-s, ?_, by simp⟩
        rw [hgl]
        have := hG.mul_mem _ hinv _ hs
        rwa [neg_one_mul] at this
      obtain ⟨-, -, h' | h' | h' | h'⟩ := mkSym_cases hk
      · rw [h'.2.2]
      · have h2 : d % 2 = 0 := h'.2.1
        omega
      · exact absurd hcl h'.1
      · exact absurd hcl h'.1
  refine ⟨σ, τ, hσ, hτ, hso, ?_, hi, hτi, ?_, ?_⟩
  · intro R; rw [hτo, hmem]
  · simp [Sym.eq, hi, hτi]
  · simp [Sym.eq, hi, hτi]

theorem blockOne_eq (B : Mat K d) : blockOne (n := d + 1) B = aff B 0 := by
  apply affExt
  · intro i j; simp [blockOne]
  · intro i; simp [blockOne, (Fin.castSucc_lt_last i).ne]
  · intro i; simp [blockOne, (Fin.castSucc_lt_last i).ne']
  · simp [blockOne]

/-- **C102** `transform(B)` of a three-dimensional space group: the new operations act on `B x` as the old ones on `x`; in every other dimension it
raises `ValueError`, whatever `B` is. -/
theorem C102_transform :
    (∀ (S : List (Mat K 4)) (B : Mat K 3), S.head? = some 1 → (∀ s ∈ S, ∃ R t, s = aff R t) → (∀ s ∈ S, |s.det| = 1) → B.det ≠ 0 →
      ∃ σ : PSym K 4, (⟨⟨S, false⟩, true⟩ : PSym K 4).transformP B = .ok σ ∧ σ.projective = true ∧ σ.inversion = false ∧
        List.Forall₂ (fun s s' => (∃ R t, s' = aff R t) ∧ ∀ x, act s' (B.mulVec x) = B.mulVec (act s x)) S σ.S) ∧
    (∀ (σ : PSym K (d + 1)) (B : Mat K d), d ≠ 3 → σ.transformP B = .error .valueError) := by
  constructor
  · intro S B h1 hS hdet hB
    have hu : IsUnit B.det := isUnit_iff_ne_zero.2 hB
    have hb : ∀ R t, blockOne (n := 4) B * aff R t * minv (blockOne (n := 4) B) = aff (B * R * B⁻¹) (B.mulVec t) := by
      intro R t
      rw [minv_eq]
      change blockOne (n := 3 + 1) B * aff R t * (blockOne (n := 3 + 1) B)⁻¹ = _
      rw [blockOne_eq, aff_inv hB, aff_mul, aff_mul]
      simp
    have hh : (S.map fun s => blockOne (n := 4) B * s * minv (blockOne (n := 4) B)).head? = some 1 := by
      rw [List.head?_map, h1, Option.map_some, ← aff_one, hb]
      rw [mul_one, Matrix.mul_nonsing_inv _ hu, Matrix.mulVec_zero]
    have hall : ∀ s ∈ S.map (fun s => blockOne (n := 4) B * s * minv (blockOne (n := 4) B)),
        |s.det| = 1 ∧ s (Fin.last 3) (Fin.last 3) = 1 := by
      intro s hs'
      obtain ⟨s, hs, rfl⟩ := List.mem_map.1 hs'
      obtain ⟨R, t, rfl⟩ := hS s hs
      have h := hdet _ hs
      rw [det_aff] at h
      rw [hb, det_aff, Matrix.det_conj (by rwa [Matrix.isUnit_iff_isUnit_det]) R, aff_ll]
      exact ⟨h, rfl⟩
    have hm : mkPSym (S.map fun s => blockOne (n := 4) B * s * minv (blockOne (n := 4) B)) false true =
        .ok ⟨⟨S.map fun s => blockOne (n := 4) B * s * minv (blockOne (n := 4) B), false⟩, true⟩ := by
      rw [mkPSym, mkSym_corner (d := 3) hh (fun s hs => (hall s hs).1) (fun s hs => (hall s hs).2)]
    refine ⟨⟨⟨S.map fun s => blockOne (n := 4) B * s * minv (blockOne (n := 4) B), false⟩, true⟩, ?_, rfl, rfl, ?_⟩
    · rw [PSym.transformP, if_neg (by simp), if_neg hB, hm]
    · rw [List.forall₂_map_right_iff, List.forall₂_same]
      intro s hs
      obtain ⟨R, t, rfl⟩ := hS s hs
      rw [hb]
      refine ⟨⟨_, _, rfl⟩, fun x => ?_⟩
      rw [act_aff, act_aff, Matrix.mulVec_mulVec, Matrix.mul_assoc, Matrix.nonsing_inv_mul _ hu, Matrix.mul_one, Matrix.mulVec_add,
        Matrix.mulVec_mulVec]
  · intro σ B hd
    rw [PSym.transformP, if_pos (by omega)]

/-- **C102** `dual` of a space group keeps the mark; its operations are the unique matrices `s'` with `(s' k)·(s x) = k·x`, of the form with the
translation in the last row. -/
theorem C102_dual (S : List (Mat K (d + 1))) (h1 : S.head? = some 1) (hS : ∀ s ∈ S, ∃ R t, s = aff R t) (hdet : ∀ s ∈ S, |s.det| = 1) :
    ∃ σ : PSym K (d + 1), (⟨⟨S, false⟩, true⟩ : PSym K (d + 1)).dual = .ok σ ∧ σ.projective = true ∧ σ.inversion = false ∧
      List.Forall₂ (fun s s' => (∃ R r, s' = coaff R r) ∧
        (∀ k x : Fin (d + 1) → K, dotProduct (s'.mulVec k) (s.mulVec x) = dotProduct k x) ∧
        ∀ s'', (∀ k x : Fin (d + 1) → K, dotProduct (s''.mulVec k) (s.mulVec x) = dotProduct k x) → s'' = s') S σ.S := by
  have hu : ∀ s ∈ S, IsUnit s.det := fun s hs => isUnit_det_of_abs (hdet s hs)
  have hb : ∀ s ∈ S, ∃ R r, minv s.transpose = coaff R r := by
    intro s hs
    have hs' := hu s hs
    obtain ⟨R, t, rfl⟩ := hS s hs
    rw [det_aff] at hs'
    rw [minv_eq, ← Matrix.transpose_nonsing_inv, aff_inv hs'.ne_zero, aff_transpose]
    exact ⟨_, _, rfl⟩
  have hh : (S.map fun s => minv s.transpose).head? = some 1 := by
    rw [List.head?_map, h1, Option.map_some, minv_eq]; simp
  have hall : ∀ s ∈ S.map (fun s => minv s.transpose), |s.det| = 1 ∧ s (Fin.last d) (Fin.last d) = 1 := by
    intro s hs'
    obtain ⟨s, hs, rfl⟩ := List.mem_map.1 hs'
    constructor
    · rw [minv_eq, Matrix.det_nonsing_inv, Ring.inverse_eq_inv', Matrix.det_transpose, abs_inv, hdet s hs, inv_one]
    · obtain ⟨R, r, h⟩ := hb s hs
      rw [h, coaff_ll]
  refine ⟨⟨⟨S.map fun s => minv s.transpose, false⟩, true⟩, ?_, rfl, rfl, ?_⟩
  · rw [PSym.dual, mkPSym, mkSym_corner hh (fun s hs => (hall s hs).1) (fun s hs => (hall s hs).2)]
  · rw [List.forall₂_map_right_iff, List.forall₂_same]
    intro s hs
    have hdot : ∀ (m : Mat K (d + 1)) (k x : Fin (d + 1) → K), dotProduct (m.mulVec k) (s.mulVec x) =
        dotProduct ((s.transpose * m).mulVec k) x := by
      intro m k x
      rw [Matrix.dotProduct_mulVec, ← Matrix.mulVec_transpose, Matrix.mulVec_mulVec]
    have huT : IsUnit s.transpose.det := by rw [Matrix.det_transpose]; exact hu s hs
    refine ⟨hb s hs, ?_, ?_⟩
    · intro k x
      rw [hdot, minv_eq, Matrix.mul_nonsing_inv _ huT, Matrix.one_mulVec]
    · intro m hm
      rw [minv_eq]
      refine (Matrix.inv_eq_right_inv ?_).symm
      apply Matrix.ext_of_mulVec_single
      intro i
      funext j
      have := hm (Pi.single i 1) (Pi.single j 1)
      rw [hdot, dotProduct_single, dotProduct_single, mul_one, mul_one] at this
      rw [this, Matrix.one_mulVec]

/-- **C102** (defect) `transpose()` and `*` lose the mark: what they return for space groups is no longer a space group of the same space. -/
theorem C102_flag_lost (σ τ ρ : PSym K (d + 1)) : (σ.transpose = .ok ρ → ρ.projective = false ∧ ρ.spaceDim = d + 1) ∧
    (σ.mul τ = .ok ρ → ρ.projective = false ∧ ρ.spaceDim = d + 1) := by
  constructor
  · intro h
    rw [PSym.transpose, mkPSym] at h
    cases hk : mkSym (σ.S.map fun s => s.transpose) σ.inversion with
    | error e => rw [hk] at h; simp at h
    | ok x => rw [hk] at h; obtain rfl := Except.ok.inj h; exact ⟨rfl, rfl⟩
  · intro h
    rw [PSym.mul] at h
    cases hk : σ.toSym.mul τ.toSym with
    | error e => rw [hk] at h; simp at h
    | ok x => rw [hk] at h; obtain rfl := Except.ok.inj h; exact ⟨rfl, rfl⟩

/-- **C102** (defect) A space group containing an operation some power of which is a translation (a screw axis, a glide plane, a centring) can neither be
checked nor multiplied: `check()` and `*` raise `ValueError`. -/
theorem C102_translation_defect (σ : PSym K (d + 1)) (s : Mat K (d + 1)) (hs : s ∈ σ.S) (m : ℕ) (l : Fin d → K) (hl : l ≠ 0)
    (hp : s ^ m = aff 1 l) : σ.check = .error .valueError ∧ ∀ τ : PSym K (d + 1), σ.mul τ = .error .valueError := by
  have hgen : ∀ (G : List (Mat K (d + 1))) inv, s ∈ G → fromGenerator G inv = .error .valueError := by
    intro G inv hsG
    cases h : fromGenerator G inv with
    | error e => rw [fromGenerator_error (List.ne_nil_of_mem hsG) h]
    | ok ρ =>
      exfalso
      have hf := ((C03_from_generator_returns_iff G inv).1 ⟨ρ, h⟩).2.2.1
      refine Set.infinite_of_injective_forall_mem (f := fun k : ℕ => s ^ (m * k)) ?_ ?_ hf
      · intro a b hab
        simp only [pow_mul, hp, trans_pow, aff_inj] at hab
        obtain ⟨i, hi⟩ := Function.ne_iff.1 hl
        have := congrFun hab.2 i
        simp only [Pi.smul_apply, smul_eq_mul] at this
        exact Nat.cast_injective (mul_right_cancel₀ hi this)
      · intro k
        exact ⟨List.replicate (m * k) s, by intro g hg; rw [List.eq_of_mem_replicate hg]; exact hsG, by simp⟩
  refine ⟨?_, fun τ => ?_⟩
  · rw [Sym.check, hgen _ _ hs]
  · rw [PSym.mul, Sym.mul, hgen _ _ (List.mem_append_left _ hs)]

theorem projAct_aff (R : Mat K d) (t x : Fin d → K) : projAct (aff R t) x = act (aff R t) x := by
  funext i
  rw [projAct, mulVec_snoc, act_aff]
  simp

theorem projAct_neg (M : Mat K (d + 1)) (x : Fin d → K) : projAct (-M) x = projAct M x := by
  funext i
  rw [projAct, projAct, Matrix.neg_mulVec, Pi.neg_apply, Pi.neg_apply, neg_div_neg_eq]

/-- **C102** (defect) `inversion=True` together with `projective=True` adds no inversion: the size doubles, but every operation acts on space as one of
the given ones. -/
theorem C102_inversion_flag_defect (S : List (Mat K (d + 1))) (h1 : S.head? = some 1) (hS : ∀ s ∈ S, ∃ R t, s = aff R t)
    (hdet : ∀ s ∈ S, |s.det| = 1) :
    ∃ σ : PSym K (d + 1), mkPSym S true true = .ok σ ∧ σ.len = 2 * S.length ∧ (∀ s ∈ S, -s ∈ σ.ops) ∧
      ∀ M ∈ σ.ops, ∃ s ∈ S, ∀ x, projAct M x = act s x := by
  have hc : ∀ s ∈ S, s (Fin.last d) (Fin.last d) = 1 := by
    intro s hs; obtain ⟨R, t, rfl⟩ := hS s hs; exact aff_ll _ _
  obtain ⟨σ, h⟩ := (mkSym_ok_iff (inv := true)).2 ⟨h1, hdet⟩
  refine ⟨⟨σ, true⟩, by rw [mkPSym, h], ?_, ?_, ?_⟩
  · obtain ⟨-, -, h' | h' | h' | h'⟩ := mkSym_cases h
    · exact absurd h'.1 (not_neg_closed h1 hc)
    · exact absurd h'.1 (not_neg_closed h1 hc)
    · rw [h'.2.2.2]; simp [Sym.len]; omega
    · rw [h'.2.2]; simp [Sym.len]; omega
  · intro s hs
    rw [mkSym_mem_ops h]
    exact Or.inr ⟨rfl, by simpa using hs⟩
  · intro M hM
    rcases (mkSym_mem_ops h M).1 hM with hs | ⟨-, hs⟩
    · refine ⟨M, hs, fun x => ?_⟩
      obtain ⟨R, t, rfl⟩ := hS M hs
      exact projAct_aff R t x
    · refine ⟨-M, hs, fun x => ?_⟩
      obtain ⟨R, t, h⟩ := hS _ hs
      rw [← projAct_neg, h]
      exact projAct_aff R t x

/-! ## Examples -/

/-- Comparison of a result with a given symmetry of dimension two. -/
def isPoint2 (σ : (m : ℕ) × PSym ℚ m) (τ : PSym ℚ 2) : Bool :=
  match σ with
  | ⟨2, ρ⟩ => decide (ρ.S = τ.S) && ρ.inversion == τ.inversion && ρ.projective == τ.projective
  | _ => false

/-- Comparison of a result with a given symmetry of dimension one. -/
def isPoint1 (σ : (m : ℕ) × PSym ℚ m) (τ : PSym ℚ 1) : Bool :=
  match σ with
  | ⟨1, ρ⟩ => decide (ρ.S = τ.S) && ρ.inversion == τ.inversion && ρ.projective == τ.projective
  | _ => false

/-- a glide plane and an inversion in two dimensions, with the product -/
def glideList : List (Mat ℚ 3) :=
  [1, !![1, 0, 1/2; 0, -1, 0; 0, 0, 1], !![-1, 0, 0; 0, -1, 0; 0, 0, 1], !![-1, 0, 1/2; 0, 1, 0; 0, 0, 1]]

example : ∃ σ, spaceGroup glideList 2 = .ok σ ∧ decide (σ = ⟨⟨glideList, false⟩, true⟩) = true := okAnd_iff.1 (by decide +kernel)

example : ∃ σ, pointGroup glideList 2 = .ok σ ∧
    isPoint2 σ ⟨⟨[1, !![1, 0; 0, -1], !![-1, 0; 0, -1], !![-1, 0; 0, 1]], false⟩, false⟩ = true := okAnd_iff.1 (by decide +kernel)

example : ∃ σ, strictPointGroup glideList 2 = .ok σ ∧
    isPoint2 σ ⟨⟨[1, !![-1, 0; 0, -1]], false⟩, false⟩ = true := okAnd_iff.1 (by decide +kernel)

/-- The square of the glide is a lattice translation. -/
example : (!![1, 0, 1/2; 0, -1, 0; 0, 0, 1] : Mat ℚ 3) ^ 2 = aff 1 ![1, 0] ∧ (![1, 0] : Fin 2 → ℚ) ≠ 0 := by decide +kernel

/-- The list is a group modulo integer translations. -/
example : ClosedMod {l : Fin 2 → ℚ | ∀ i, ∃ z : ℤ, l i = z} glideList := by
  have h : ∀ a ∈ glideList, ∀ b ∈ glideList, ∃ c ∈ glideList, ∃ l ∈ [(![0, 0] : Fin 2 → ℚ), ![1, 0], ![-1, 0]], a * b = aff 1 l * c := by
    decide +kernel
  intro a ha b hb
  obtain ⟨c, hc, l, hl, h⟩ := h a ha b hb
  refine ⟨c, hc, l, ?_, h⟩
  simp only [List.mem_cons, List.not_mem_nil, or_false] at hl
  rcases hl with rfl | rfl | rfl
  · intro i; fin_cases i <;> exact ⟨0, by simp⟩
  · intro i; fin_cases i
    · exact ⟨1, by simp⟩
    · exact ⟨0, by simp⟩
  · intro i; fin_cases i
    · exact ⟨-1, by simp⟩
    · exact ⟨0, by simp⟩

/-- A centred cell: the pure translation has the same linear part as the identity. -/
example : ∃ σ, pointGroup [(1 : Mat ℚ 3), !![1, 0, 1/2; 0, 1, 1/2; 0, 0, 1]] 2 = .ok σ ∧
    isPoint2 σ ⟨⟨[1, 1], false⟩, false⟩ = true := okAnd_iff.1 (by decide +kernel)

/-- The inversion in one dimension: different results of the two constructors. -/
example : (∃ σ, pointGroup [(1 : Mat ℚ 2), !![-1, 0; 0, 1]] 1 = .ok σ ∧ isPoint1 σ ⟨⟨[1], true⟩, false⟩ = true) ∧
    ∃ σ, strictPointGroup [(1 : Mat ℚ 2), !![-1, 0; 0, 1]] 1 = .ok σ ∧ isPoint1 σ ⟨⟨[1, !![-1]], false⟩, false⟩ = true :=
  ⟨okAnd_iff.1 (by decide +kernel), okAnd_iff.1 (by decide +kernel)⟩

/-- A fourfold screw axis: change of basis and dual. -/
def screwList : List (Mat ℚ 4) := [1, aff !![0, -1, 0; 1, 0, 0; 0, 0, 1] ![0, 0, 1/4]]

theorem screw_ok : screwList.head? = some 1 ∧ (∀ s ∈ screwList, ∃ R t, s = aff R t) ∧ ∀ s ∈ screwList, |s.det| = 1 := by
  have h : ∀ s ∈ screwList, ∃ R t, s = aff R t ∧ |R.det| = 1 := by
    intro s hs
    simp only [screwList, List.mem_cons, List.not_mem_nil, or_false] at hs
    rcases hs with rfl | rfl
    · exact ⟨1, 0, aff_one.symm, by simp⟩
    · exact ⟨_, _, rfl, by decide +kernel⟩
  refine ⟨rfl, fun s hs => ?_, fun s hs => ?_⟩
  · obtain ⟨R, t, h, -⟩ := h s hs; exact ⟨R, t, h⟩
  · obtain ⟨R, t, h, h'⟩ := h s hs; rw [h]; exact (congrArg _ (det_aff R t)).trans h'

example : ∃ σ : PSym ℚ 4, (⟨⟨screwList, false⟩, true⟩ : PSym ℚ 4).transformP !![2, 0, 0; 0, 1, 0; 0, 0, 4] = .ok σ ∧ σ.projective = true :=
  let ⟨σ, h, h', _⟩ := (C102_transform (K := ℚ) (d := 3)).1 screwList _ screw_ok.1 screw_ok.2.1 screw_ok.2.2 (by decide +kernel)
  ⟨σ, h, h'⟩

example : ∃ σ : PSym ℚ 4, (⟨⟨screwList, false⟩, true⟩ : PSym ℚ 4).dual = .ok σ ∧ σ.projective = true :=
  let ⟨σ, h, h', _⟩ := C102_dual (d := 3) screwList screw_ok.1 screw_ok.2.1 screw_ok.2.2
  ⟨σ, h, h'⟩

end TB
