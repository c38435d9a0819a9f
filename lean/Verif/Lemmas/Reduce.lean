import Verif.Lemmas.SymmetryPoints

/-! Helper lemmas for `reduce_symmetric_data`. -/

set_option linter.unusedSectionVars false

namespace TB
open Spec

variable {K : Type} [Field K] [LinearOrder K] [IsStrictOrderedRing K] {d : ℕ} {D : Type} [DecidableEq D]

theorem sqNorm_nonneg (v : Vec K d) : 0 ≤ sqNorm v := Finset.sum_nonneg fun _ _ => sq_nonneg _

theorem sqNorm_eq_zero {v : Vec K d} : sqNorm v = 0 ↔ v = 0 := by
  unfold sqNorm
  rw [Finset.sum_eq_zero_iff_of_nonneg (fun _ _ => sq_nonneg _)]
  constructor
  · intro h; funext i; simpa using h i (Finset.mem_univ i)
  · rintro rfl; simp

theorem sqNorm_eq_dot (v : Vec K d) : sqNorm v = v ⬝ᵥ v := by
  simp [sqNorm, dotProduct, sq]

theorem sqNorm_neg (v : Vec K d) : sqNorm (-v) = sqNorm v := by simp [sqNorm]

theorem sqNorm_mulVec {s : Mat K d} (hs : s * s.transpose = 1) (v : Vec K d) :
    sqNorm (s.mulVec v) = sqNorm v := by
  have hs' : s.transpose * s = 1 := mul_eq_one_comm.1 hs
  rw [sqNorm_eq_dot, sqNorm_eq_dot, Matrix.dotProduct_mulVec, Matrix.vecMul_mulVec, ← Matrix.dotProduct_mulVec,
    hs', Matrix.one_mulVec]

theorem sqNorm_image {σ : Sym K d} (ho : σ.isOrthogonal = true) {s : Mat K d} (hs : s ∈ σ.ops) (v : Vec K d) :
    sqNorm (s.mulVec v) = sqNorm v := by
  have ho' : ∀ s ∈ σ.S, s * s.transpose = 1 := by
    simpa [Sym.isOrthogonal, List.all_eq_true] using ho
  rcases mem_ops.1 hs with h | ⟨-, h⟩
  · exact sqNorm_mulVec (ho' s h) v
  · have := sqNorm_mulVec (ho' _ h) v
    rwa [Matrix.neg_mulVec, sqNorm_neg] at this

/-- the threshold factor of line 688, squared -/
abbrev brk : K := (10001 / 10000) ^ 2

theorem delImage_eq (checked : Bool) (k : Vec K d) (v : D) (k' : Vec K d) (l : List (Vec K d × D))
    (h1 : ∀ p ∈ l, sqNorm k * brk < sqNorm p.1 → p.1 ≠ k')
    (h2 : l.Pairwise fun p q => sqNorm k * brk < sqNorm p.1 → q.1 ≠ k') :
    delImage checked k v k' l =
      if checked = true ∧ ∃ p ∈ l, p.1 = k' ∧ p.2 ≠ v then .error .valueError
      else .ok (l.filter fun p => decide (p.1 ≠ k')) := by
  induction l with
  | nil => simp [delImage]
  | cons p l ih =>
    rw [List.pairwise_cons] at h2
    have ih' := ih (fun q hq => h1 q (by simp [hq])) h2.2
    simp only [delImage]
    by_cases hb : sqNorm k * (10001 / 10000) ^ 2 < sqNorm p.1
    · rw [if_pos hb]
      have ha : ∀ q ∈ p :: l, q.1 ≠ k' := by
        intro q hq
        rcases List.mem_cons.1 hq with rfl | hq
        · exact h1 _ (by simp) hb
        · exact h2.1 q hq hb
      rw [if_neg (by rintro ⟨-, q, hq, he, -⟩; exact ha q hq he)]
      rw [List.filter_eq_self.2 (fun q hq => by simpa using ha q hq)]
    · rw [if_neg hb]
      by_cases he : p.1 = k'
      · rw [if_pos he]
        by_cases hc : checked = true ∧ p.2 ≠ v
        · rw [if_pos (by simp [hc.1, hc.2]), if_pos ⟨hc.1, p, by simp, he, hc.2⟩]
        · rw [if_neg (by simpa using hc), ih']
          have e1 : (checked = true ∧ ∃ q ∈ p :: l, q.1 = k' ∧ q.2 ≠ v) ↔
              (checked = true ∧ ∃ q ∈ l, q.1 = k' ∧ q.2 ≠ v) := by
            constructor
            · rintro ⟨hch, q, hq, hq1, hq2⟩
              rcases List.mem_cons.1 hq with rfl | hq
              · exact absurd ⟨hch, hq2⟩ hc
              · exact ⟨hch, q, hq, hq1, hq2⟩
            · rintro ⟨hch, q, hq, h⟩
              exact ⟨hch, q, by simp [hq], h⟩
          simp only [e1]
          rw [List.filter_cons_of_neg (by simp [he])]
      · rw [if_neg he, ih']
        have e1 : (checked = true ∧ ∃ q ∈ p :: l, q.1 = k' ∧ q.2 ≠ v) ↔
            (checked = true ∧ ∃ q ∈ l, q.1 = k' ∧ q.2 ≠ v) := by
          constructor
          · rintro ⟨hch, q, hq, hq1, hq2⟩
            rcases List.mem_cons.1 hq with rfl | hq
            · exact absurd hq1 he
            · exact ⟨hch, q, hq, hq1, hq2⟩
          · rintro ⟨hch, q, hq, h⟩
            exact ⟨hch, q, by simp [hq], h⟩
        simp only [e1]
        rw [List.filter_cons_of_pos (by simpa using he)]
        by_cases hx : checked = true ∧ ∃ q ∈ l, q.1 = k' ∧ q.2 ≠ v
        · rw [if_pos hx, if_pos hx]
        · rw [if_neg hx, if_neg hx]

theorem delImages_eq (checked : Bool) (k : Vec K d) (v : D) (is : List (Vec K d)) (l : List (Vec K d × D))
    (hk : ∀ p ∈ l, p.1 ≠ k)
    (h1 : ∀ p ∈ l, sqNorm k * brk < sqNorm p.1 → p.1 ∉ is)
    (h2 : l.Pairwise fun p q => sqNorm k * brk < sqNorm p.1 → q.1 ∉ is) :
    delImages checked k v is l =
      if checked = true ∧ ∃ p ∈ l, p.1 ∈ is ∧ p.2 ≠ v then .error .valueError
      else .ok (l.filter fun p => decide (p.1 ∉ is)) := by
  induction is generalizing l with
  | nil => simp [delImages]
  | cons k' is ih =>
    simp only [delImages]
    by_cases hkk : k = k'
    · rw [if_pos hkk, ih l hk (fun p hp hb hm => h1 p hp hb (by simp [hm]))
        (h2.imp fun h hb hm => h hb (by simp [hm]))]
      have e1 : ∀ p ∈ l, (p.1 ∈ k' :: is ↔ p.1 ∈ is) := by
        intro p hp
        rw [List.mem_cons]
        exact ⟨fun h => h.resolve_left (fun he => hk p hp (he.trans hkk.symm)), Or.inr⟩
      have e2 : (checked = true ∧ ∃ p ∈ l, p.1 ∈ is ∧ p.2 ≠ v) ↔
          (checked = true ∧ ∃ p ∈ l, p.1 ∈ k' :: is ∧ p.2 ≠ v) := by
        constructor
        · rintro ⟨hc, p, hp, h, h'⟩; exact ⟨hc, p, hp, (e1 p hp).2 h, h'⟩
        · rintro ⟨hc, p, hp, h, h'⟩; exact ⟨hc, p, hp, (e1 p hp).1 h, h'⟩
      have e3 : (l.filter fun p => decide (p.1 ∉ is)) = l.filter fun p => decide (p.1 ∉ k' :: is) :=
        List.filter_congr fun p hp => by simp only [e1 p hp]
      rw [e3]
      by_cases hx : checked = true ∧ ∃ p ∈ l, p.1 ∈ is ∧ p.2 ≠ v
      · rw [if_pos hx, if_pos (e2.1 hx)]
      · rw [if_neg hx, if_neg (fun h => hx (e2.2 h))]
    · rw [if_neg hkk, delImage_eq checked k v k' l (fun p hp hb he => h1 p hp hb (by simp [he]))
        (h2.imp fun h hb he => h hb (by simp [he]))]
      by_cases hx : checked = true ∧ ∃ p ∈ l, p.1 = k' ∧ p.2 ≠ v
      · rw [if_pos hx]
        obtain ⟨hc, p, hp, he, hv⟩ := hx
        rw [if_pos ⟨hc, p, hp, by simp [he], hv⟩]
      · rw [if_neg hx]
        dsimp only
        have hsub := List.filter_sublist (l := l) (p := fun p => decide (p.1 ≠ k'))
        rw [ih _ (fun p hp => hk p (hsub.subset hp))
          (fun p hp hb hm => h1 p (hsub.subset hp) hb (by simp [hm]))
          ((h2.sublist hsub).imp fun h hb hm => h hb (by simp [hm]))]
        have e2 : (checked = true ∧ ∃ p ∈ l.filter fun p => decide (p.1 ≠ k'), p.1 ∈ is ∧ p.2 ≠ v) ↔
            (checked = true ∧ ∃ p ∈ l, p.1 ∈ k' :: is ∧ p.2 ≠ v) := by
          constructor
          · rintro ⟨hc, p, hp, h, h'⟩; exact ⟨hc, p, hsub.subset hp, by simp [h], h'⟩
          · rintro ⟨hc, p, hp, h, h'⟩
            have hne : p.1 ≠ k' := fun he => hx ⟨hc, p, hp, he, h'⟩
            exact ⟨hc, p, List.mem_filter.2 ⟨hp, by simpa using hne⟩, (List.mem_cons.1 h).resolve_left hne, h'⟩
        have e3 : ((l.filter fun p => decide (p.1 ≠ k')).filter fun p => decide (p.1 ∉ is)) =
            l.filter fun p => decide (p.1 ∉ k' :: is) := by
          rw [List.filter_filter]
          refine List.filter_congr fun p _ => ?_
          rw [Bool.eq_iff_iff]
          simp only [Bool.and_eq_true, decide_eq_true_eq, List.mem_cons, not_or]
          exact and_comm
        rw [e3]
        by_cases hy : checked = true ∧ ∃ p ∈ l.filter fun p => decide (p.1 ≠ k'), p.1 ∈ is ∧ p.2 ≠ v
        · rw [if_pos hy, if_pos (e2.1 hy)]
        · rw [if_neg hy, if_neg (fun h => hy (e2.2 h))]

/-- the sorted-enough condition: nothing after a point that is too far out can be an image of a closer one -/
theorem reduceLoop_spec {σ : Sym K d} (hg : IsMatGroup σ.ops) (ho : σ.isOrthogonal = true) (checked : Bool)
    (n : ℕ) (l : List (Vec K d × D)) (hn : l.length ≤ n) (hnd : (l.map Prod.fst).Nodup)
    (hbrk : l.Pairwise fun p q => sqNorm p.1 ≤ sqNorm q.1 * brk) :
    (∀ r, σ.reduceLoop checked n l = .ok r →
      r.Sublist l ∧
      (∀ p ∈ l, ∃ q ∈ r, (∃ s ∈ σ.ops, p.1 = s.mulVec q.1) ∧ (checked = true → p.2 = q.2)) ∧
      r.Pairwise (fun p q => ∀ s ∈ σ.ops, q.1 ≠ s.mulVec p.1)) ∧
    (∀ e, σ.reduceLoop checked n l = .error e → e = .valueError ∧ checked = true ∧
      ∃ p ∈ l, ∃ q ∈ l, (∃ s ∈ σ.ops, q.1 = s.mulVec p.1) ∧ p.2 ≠ q.2) := by
  induction n generalizing l with
  | zero =>
    cases l with
    | nil => simp [Sym.reduceLoop]
    | cons p l => simp at hn
  | succ n ih =>
    cases l with
    | nil => simp [Sym.reduceLoop]
    | cons p l =>
      rw [List.pairwise_cons] at hbrk
      rw [List.map_cons, List.nodup_cons] at hnd
      have hpl : ∀ q ∈ l, q.1 ≠ p.1 := fun q hq he => hnd.1 (List.mem_map.2 ⟨q, hq, he⟩)
      have hstep : (if p.1 = 0 then (.ok l : Except Err (List (Vec K d × D)))
          else delImages checked p.1 p.2 (σ.images p.1) l) =
          if checked = true ∧ ∃ q ∈ l, q.1 ∈ σ.images p.1 ∧ q.2 ≠ p.2 then .error .valueError
          else .ok (l.filter fun q => decide (q.1 ∉ σ.images p.1)) := by
        by_cases h0 : p.1 = 0
        · rw [if_pos h0]
          have hno : ∀ q ∈ l, q.1 ∉ σ.images p.1 := by
            intro q hq hm
            obtain ⟨s, -, he⟩ := mem_images.1 hm
            rw [h0, Matrix.mulVec_zero] at he
            exact hpl q hq (he.trans h0.symm)
          rw [if_neg (by rintro ⟨-, q, hq, hm, -⟩; exact hno q hq hm),
            List.filter_eq_self.2 (fun q hq => by simpa using hno q hq)]
        · rw [if_neg h0]
          have himg : ∀ x ∈ σ.images p.1, sqNorm x = sqNorm p.1 := by
            intro x hx
            obtain ⟨s, hs, rfl⟩ := mem_images.1 hx
            exact sqNorm_image ho hs _
          refine delImages_eq checked p.1 p.2 _ l hpl ?_ ?_
          · intro q _ hb hm
            rw [himg _ hm] at hb
            have h3 : (1 : K) ≤ brk := by unfold brk; norm_num
            have h4 := sqNorm_nonneg p.1
            nlinarith
          · refine hbrk.2.imp ?_
            intro a b hab hb hm
            rw [himg _ hm] at hab
            exact absurd hab (not_le.2 hb)
      simp only [Sym.reduceLoop]
      rw [hstep]
      by_cases hx : checked = true ∧ ∃ q ∈ l, q.1 ∈ σ.images p.1 ∧ q.2 ≠ p.2
      · rw [if_pos hx]
        refine ⟨fun r h => by simp at h, ?_⟩
        intro e h
        simp only [Except.error.injEq] at h
        obtain ⟨hc, q, hq, hm, hv⟩ := hx
        obtain ⟨s, hs, he⟩ := mem_images.1 hm
        exact ⟨h.symm, hc, p, by simp, q, by simp [hq], ⟨s, hs, he⟩, fun h => hv h.symm⟩
      · rw [if_neg hx]
        dsimp only
        have hsub := List.filter_sublist (l := l) (p := fun q => decide (q.1 ∉ σ.images p.1))
        obtain ⟨i1, i2⟩ := ih _ (by have := hsub.length_le; simp at hn; omega)
          (hnd.2.sublist (hsub.map _)) (hbrk.2.sublist hsub)
        cases hr : σ.reduceLoop checked n (l.filter fun q => decide (q.1 ∉ σ.images p.1)) with
        | error e =>
          refine ⟨fun r h => by simp at h, ?_⟩
          intro e' h
          simp only [Except.error.injEq] at h
          subst h
          obtain ⟨h1, h2, a, ha, b, hb, h3⟩ := i2 e hr
          exact ⟨h1, h2, a, by simp [hsub.subset ha], b, by simp [hsub.subset hb], h3⟩
        | ok r =>
          refine ⟨?_, fun e h => by simp at h⟩
          intro r' h
          simp only [Except.ok.injEq] at h
          subst h
          obtain ⟨h1, h2, h3⟩ := i1 r hr
          refine ⟨(h1.trans hsub).cons_cons p, ?_, ?_⟩
          · intro q hq
            rcases List.mem_cons.1 hq with rfl | hq
            · exact ⟨q, by simp, ⟨1, hg.one_mem, by simp⟩, fun _ => rfl⟩
            · by_cases hm : q.1 ∈ σ.images p.1
              · refine ⟨p, by simp, mem_images.1 hm, fun hc => ?_⟩
                by_contra hv
                exact hx ⟨hc, q, hq, hm, hv⟩
              · obtain ⟨q', hq', h⟩ := h2 q (List.mem_filter.2 ⟨hq, by simpa using hm⟩)
                exact ⟨q', by simp [hq'], h⟩
          · rw [List.pairwise_cons]
            refine ⟨?_, h3⟩
            intro q hq s hs he
            have := (List.mem_filter.1 (h1.subset hq)).2
            simp only [decide_eq_true_eq] at this
            exact this (mem_images.2 ⟨s, hs, he⟩)

end TB
