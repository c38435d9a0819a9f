import Mathlib.Tactic.NormNum
import Verif.Lemmas.Symmetry

/-!
# Properties C01–C06: generating and constructing symmetry groups
-/

set_option linter.unusedSectionVars false

namespace TB
open Spec

variable {K : Type} [Field K] [LinearOrder K] [IsStrictOrderedRing K] {d : ℕ}

/-! Concrete symmetries used in the examples. -/

/-- 90° rotation of the plane. -/
def rot4 : Mat ℚ 2 := !![0, -1; 1, 0]
/-- mirror of the plane. -/
def mirY : Mat ℚ 2 := !![1, 0; 0, -1]
/-- cyclic permutation of the axes of space. -/
def cyc3 : Mat ℚ 3 := !![0, 1, 0; 0, 0, 1; 1, 0, 0]
/-- inversion of space. -/
def inv3 : Mat ℚ 3 := !![-1, 0, 0; 0, -1, 0; 0, 0, -1]
/-- a shear: generates an infinite group. -/
def shear : Mat ℚ 2 := !![1, 1; 0, 1]

/-- **C01** Whenever `from_generator` returns, the listed operations are a group that contains every generator,
and with `inversion=True` also `-1` (hence the negative of every generator). -/
theorem C01_from_generator_group (G : List (Mat K d)) (inversion : Bool) (σ : Sym K d)
    (h : fromGenerator G inversion = .ok σ) :
    IsMatGroup σ.ops ∧ (∀ g ∈ G, g ∈ σ.ops) ∧ (inversion = true → ∀ a ∈ σ.ops, -a ∈ σ.ops) := by
  obtain ⟨S, hS, -, -, -, h1, hG, hcl, -, -⟩ := fromGenerator_ok h
  have hm := mkSym_mem_ops hS
  have hone : 1 ∈ σ.ops := (hm 1).2 (Or.inl h1)
  have hmul : ∀ a ∈ σ.ops, ∀ b ∈ σ.ops, a * b ∈ σ.ops := by
    intro a ha b hb
    rw [hm] at ha hb ⊢
    rcases ha with ha | ⟨hi, ha⟩ <;> rcases hb with hb | ⟨hi', hb⟩
    · exact Or.inl (hcl _ ha _ hb)
    · exact Or.inr ⟨hi', by simpa using hcl _ ha _ hb⟩
    · exact Or.inr ⟨hi, by simpa using hcl _ ha _ hb⟩
    · exact Or.inl (by simpa using hcl _ ha _ hb)
  refine ⟨⟨hone, hmul, inv_mem_of_closed hmul hone ?_⟩, fun g hg => (hm g).2 (Or.inl (hG g hg)), ?_⟩
  · exact Sym.Constructed.det_ops ⟨S, inversion, hS⟩
  · intro hi a ha
    rw [hm] at ha ⊢
    rcases ha with ha | ⟨-, ha⟩
    · exact Or.inr ⟨hi, by simpa using ha⟩
    · exact Or.inl ha

example : ∃ σ, fromGenerator [rot4, mirY, 1, rot4] false = .ok σ ∧
    (decide (σ.len = 8) && decide (rot4 * mirY ∈ σ.ops)) = true :=
  okAnd_iff.1 (by decide +kernel)

/-- **C02** Every listed operation is a product of generators, up to a factor `-1` when `inversion=True`. -/
theorem C02_from_generator_minimal (G : List (Mat K d)) (inversion : Bool) (σ : Sym K d)
    (h : fromGenerator G inversion = .ok σ) :
    ∀ s ∈ σ.ops, ∃ l : List (Mat K d), (∀ g ∈ l, g ∈ G) ∧
      (s = l.prod ∨ (inversion = true ∧ s = -l.prod)) := by
  obtain ⟨S, hS, -, -, -, h1, hG, hcl, -, hsub⟩ := fromGenerator_ok h
  intro s hs
  rcases (mkSym_mem_ops hS s).1 hs with hs | ⟨hi, hs⟩
  · obtain ⟨l, hl, he⟩ := Submonoid.exists_list_of_mem_closure (hsub _ hs)
    exact ⟨l, hl, Or.inl he.symm⟩
  · obtain ⟨l, hl, he⟩ := Submonoid.exists_list_of_mem_closure (hsub _ hs)
    exact ⟨l, hl, Or.inr ⟨hi, by rw [he, neg_neg]⟩⟩

example : ∃ σ, fromGenerator [cyc3] true = .ok σ ∧ (decide (σ.ops = [1, cyc3, cyc3 * cyc3, -1, -cyc3, -(cyc3 * cyc3)])) = true :=
  okAnd_iff.1 (by decide +kernel)

/-- **C02** for `a * b`: the operations of the product are a group that contains those of both factors, and each of
them is a product of operations of the factors. -/
theorem C02_product (σ τ ρ : Sym K d) (h : σ.mul τ = .ok ρ) (hσ : 1 ∈ σ.S) (hτ : 1 ∈ τ.S) :
    IsMatGroup ρ.ops ∧ (∀ s, s ∈ σ.ops ∨ s ∈ τ.ops → s ∈ ρ.ops) ∧
    ∀ s ∈ ρ.ops, ∃ l : List (Mat K d), (∀ g ∈ l, g ∈ σ.ops ∨ g ∈ τ.ops) ∧ s = l.prod := by
  obtain ⟨hg, hmem, hneg⟩ := C01_from_generator_group _ _ _ h
  have hin : ∀ υ : Sym K d, ∀ s, s ∈ υ.ops ↔ s ∈ υ.S ∨ (υ.inversion = true ∧ -s ∈ υ.S) := by
    intro υ s
    unfold Sym.ops
    split_ifs with hi
    · simp [hi, mem_map_neg]
    · simp [hi]
  have hS : ∀ s, s ∈ σ.S ∨ s ∈ τ.S → s ∈ ρ.ops := fun s hs => hmem s (List.mem_append.2 hs)
  refine ⟨hg, fun s hs => ?_, fun s hs => ?_⟩
  · rcases hs with hs | hs <;> rcases (hin _ s).1 hs with hs | ⟨hi, hs⟩
    · exact hS s (Or.inl hs)
    · simpa using hneg (by simp [hi]) _ (hS _ (Or.inl hs))
    · exact hS s (Or.inr hs)
    · simpa using hneg (by simp [hi]) _ (hS _ (Or.inr hs))
  · obtain ⟨l, hl, he⟩ := C02_from_generator_minimal _ _ _ h s hs
    have hl' : ∀ g ∈ l, g ∈ σ.ops ∨ g ∈ τ.ops := by
      intro g hgl
      rcases List.mem_append.1 (hl g hgl) with h | h
      · exact Or.inl ((hin _ g).2 (Or.inl h))
      · exact Or.inr ((hin _ g).2 (Or.inl h))
    rcases he with he | ⟨hi, he⟩
    · exact ⟨l, hl', he⟩
    · refine ⟨-1 :: l, ?_, by rw [he]; simp⟩
      intro g hgl
      rcases List.mem_cons.1 hgl with rfl | hgl
      · rcases Bool.or_eq_true_iff.1 hi with hi | hi
        · exact Or.inl ((hin _ _).2 (Or.inr ⟨hi, by simpa using hσ⟩))
        · exact Or.inr ((hin _ _).2 (Or.inr ⟨hi, by simpa using hτ⟩))
      · exact hl' g hgl

/-- A group with inversion times one without. -/
example : ∃ ρ, (⟨[1], true⟩ : Sym ℚ 3).mul ⟨[1, cyc3, cyc3 * cyc3], false⟩ = .ok ρ ∧ decide (ρ.ops.length = 6) = true :=
  okAnd_iff.1 (by decide +kernel)

/-- **C03** `from_generator` returns a symmetry exactly when there is a generator, all generators have `|det|=1`
and the set of all finite products of generators is finite with fewer than 200 elements. -/
theorem C03_from_generator_returns_iff (G : List (Mat K d)) (inversion : Bool) :
    (∃ σ, fromGenerator G inversion = .ok σ) ↔
      G ≠ [] ∧ (∀ g ∈ G, |g.det| = 1) ∧
      {m : Mat K d | ∃ l : List (Mat K d), (∀ g ∈ l, g ∈ G) ∧ l.prod = m}.Finite ∧
      {m : Mat K d | ∃ l : List (Mat K d), (∀ g ∈ l, g ∈ G) ∧ l.prod = m}.ncard < 200 := by
  have hset : {m : Mat K d | ∃ l : List (Mat K d), (∀ g ∈ l, g ∈ G) ∧ l.prod = m} =
      (Submonoid.closure {g | g ∈ G} : Set (Mat K d)) := by
    ext m
    constructor
    · rintro ⟨l, hl, rfl⟩
      exact Submonoid.list_prod_mem _ (fun x hx => Submonoid.subset_closure (hl x hx))
    · intro hm
      obtain ⟨l, hl, he⟩ := Submonoid.exists_list_of_mem_closure hm
      exact ⟨l, hl, he⟩
  rw [hset]
  constructor
  · rintro ⟨σ, h⟩
    obtain ⟨S, hS, hne, hdet, hnd, h1, hG, hcl, hlen, hsub⟩ := fromGenerator_ok h
    have heq : (Submonoid.closure {g | g ∈ G} : Set (Mat K d)) = (S.toFinset : Set (Mat K d)) := by
      ext x
      constructor
      · intro hx
        have : x ∈ S := by
          induction hx using Submonoid.closure_induction with
          | mem x hx => exact hG x hx
          | one => exact h1
          | mul x y _ _ hx hy => exact hcl _ hx _ hy
        simpa using this
      · intro hx; exact hsub x (by simpa using hx)
    refine ⟨hne, hdet, ?_, ?_⟩
    · rw [heq]; exact Finset.finite_toSet _
    · rw [heq, Set.ncard_coe_finset, List.toFinset_card_of_nodup hnd]; exact hlen
  · rintro ⟨hne, hdet, hf, hc⟩
    exact fromGenerator_succeeds hne hdet hf hc

/-- **C03** In all other cases it raises `ValueError` (`IndexError` for an empty list of generators); a returned
set is never one truncated by the round limit (`C01`, `C02` hold for every returned value). -/
theorem C03_from_generator_error (G : List (Mat K d)) (inversion : Bool) (e : Err)
    (h : fromGenerator G inversion = .error e) : e = if G = [] then .indexError else .valueError := by
  split_ifs with hG
  · subst hG; simp [fromGenerator] at h; exact h.symm
  · exact fromGenerator_error hG h

/-- The shear generates an infinite group and is rejected (by `C03`, not by running the loop). -/
example : fromGenerator [shear] false = .error .valueError := by
  cases h : fromGenerator [shear] false with
  | error e => have := C03_from_generator_error _ _ _ h; simp at this; rw [this]
  | ok σ =>
    exfalso
    have hf := ((C03_from_generator_returns_iff [shear] false).1 ⟨σ, h⟩).2.2.1
    have hpow : ∀ n : ℕ, shear ^ n = !![1, (n : ℚ); 0, 1] := by
      intro n
      induction n with
      | zero => ext i j; fin_cases i <;> fin_cases j <;> simp
      | succ n ih =>
        rw [pow_succ, ih, shear]
        ext i j; fin_cases i <;> fin_cases j <;> simp [Matrix.mul_apply, Fin.sum_univ_two] ; ring
    refine Set.infinite_of_injective_forall_mem (f := fun n : ℕ => shear ^ n) ?_ ?_ hf
    · intro m n hmn
      have := congrFun (congrFun ((hpow m).symm.trans (hmn.trans (hpow n))) 0) 1
      simpa using this
    · intro n
      exact ⟨List.replicate n shear, by intro g hg; simpa using List.eq_of_mem_replicate hg, by simp⟩

/-- **C04** The constructor accepts exactly the lists that start with the identity and have determinants ±1 ... -/
theorem C04_constructor_accepts_iff (S : List (Mat K d)) (inversion : Bool) :
    (∃ σ, mkSym S inversion = .ok σ) ↔ S.head? = some 1 ∧ ∀ s ∈ S, |s.det| = 1 :=
  mkSym_ok_iff

/-- **C04** ... rejects every other nonempty list with `ValueError` ... -/
theorem C04_constructor_error (S : List (Mat K d)) (inversion : Bool) (e : Err) (hS : S ≠ [])
    (h : mkSym S inversion = .error e) : e = .valueError :=
  mkSym_error hS h

/-- **C04** ... and keeps exactly the given operations (with their negatives if `inversion=True`). -/
theorem C04_constructor_operations (S : List (Mat K d)) (inversion : Bool) (σ : Sym K d)
    (h : mkSym S inversion = .ok σ) (x : Mat K d) :
    x ∈ σ.ops ↔ x ∈ S ∨ (inversion = true ∧ ∃ s ∈ S, x = -s) := by
  rw [mkSym_mem_ops h]
  constructor
  · rintro (h | ⟨hi, h⟩)
    · exact Or.inl h
    · exact Or.inr ⟨hi, -x, h, by simp⟩
  · rintro (h | ⟨hi, s, hs, rfl⟩)
    · exact Or.inl h
    · exact Or.inr ⟨hi, by simpa using hs⟩

/-- the list `[1, -1, C, -C]` in three dimensions: the inversion is detected and half of the list dropped. -/
example : ∃ σ, mkSym [1, inv3, cyc3, inv3 * cyc3] false = .ok σ ∧
    decide (σ = ⟨[1, cyc3], true⟩) = true := okAnd_iff.1 (by decide +kernel)

/-- **C05** In odd dimension, or without the inversion flag, or when the generators alone do not generate `-1`,
no operation is listed twice and `len` is the number of distinct operations. -/
theorem C05_len_counts_operations (G : List (Mat K d)) (inversion : Bool) (σ : Sym K d)
    (h : fromGenerator G inversion = .ok σ)
    (hcond : d % 2 = 1 ∨ inversion = false ∨
      ¬ ∃ l : List (Mat K d), (∀ g ∈ l, g ∈ G) ∧ l.prod = -1) :
    σ.ops.Nodup ∧ σ.len = distinctCount σ.ops := by
  have key : σ.ops.Nodup := by
    obtain ⟨S, hS, -, hdetG, hnd, h1, hG, hcl, -, hsub⟩ := fromGenerator_ok h
    obtain ⟨-, hdet, hcases⟩ := mkSym_cases hS
    simp only [mem_map_neg] at hcases
    have hinv := inv_mem_of_closed hcl h1 hdet
    have hdisj : ¬ (∀ s ∈ S, -s ∈ S) → (S ++ S.map (fun s => -s)).Nodup := by
      intro hn
      refine List.nodup_append.2 ⟨hnd, hnd.map (fun a b h => neg_injective h), ?_⟩
      rintro a ha b hb rfl
      rw [mem_map_neg] at hb
      apply hn
      obtain ⟨c, hc, hac, -⟩ := hinv a ha
      have hm1 : (-1 : Mat K d) ∈ S := by
        have := hcl _ hb _ hc
        rwa [Matrix.neg_mul, hac] at this
      intro s hs
      simpa using hcl _ hm1 _ hs
    rcases hcases with ⟨hn, hd, rfl⟩ | ⟨hn, hd, rfl⟩ | ⟨hn, hi, hd, rfl⟩ | ⟨hn, hd, rfl⟩
    · simp only [Sym.ops, if_true]
      refine List.nodup_append.2 ⟨hnd.filter _, (hnd.filter _).map (fun a b h => neg_injective h), ?_⟩
      rintro a ha b hb rfl
      rw [mem_map_neg] at hb
      have h1 := (List.mem_filter.1 ha).2
      have h2 := (List.mem_filter.1 hb).2
      rw [decide_eq_true_eq] at h1 h2
      rw [det_neg_odd hd] at h2
      linarith
    · have hi : inversion = false := by
        rcases hcond with h | h | h
        · omega
        · exact h
        · exfalso
          apply h
          obtain ⟨l, hl, he⟩ := Submonoid.exists_list_of_mem_closure (hsub _ (hn 1 h1))
          exact ⟨l, hl, he⟩
      simpa [Sym.ops, hi] using hnd
    · simpa [Sym.ops] using hdisj hn
    · unfold Sym.ops
      split_ifs
      · exact hdisj hn
      · exact hnd
  refine ⟨key, ?_⟩
  rw [distinctCount, List.toFinset_card_of_nodup key, length_ops]

example : ∃ σ, fromGenerator [cyc3, inv3] true = .ok σ ∧ decide (σ.len = 6 ∧ distinctCount σ.ops = 6) = true :=
  okAnd_iff.1 (by decide +kernel)

/-- **C05**, the defect: in even dimension with `inversion=True` and generators that already generate `-1`, each
operation is listed twice. -/
theorem C05_len_double_counts (G : List (Mat K d)) (σ : Sym K d)
    (h : fromGenerator G true = .ok σ) (hd : d % 2 = 0)
    (hm1 : ∃ l : List (Mat K d), (∀ g ∈ l, g ∈ G) ∧ l.prod = -1) :
    σ.len = 2 * distinctCount σ.ops := by
  obtain ⟨S, hS, -, hdetG, hnd, h1, hG, hcl, -, hsub⟩ := fromGenerator_ok h
  obtain ⟨-, hdet, hcases⟩ := mkSym_cases hS
  simp only [mem_map_neg] at hcases
  have hm : (-1 : Mat K d) ∈ S := by
    obtain ⟨l, hl, he⟩ := hm1
    rw [← he]
    clear he
    induction l with
    | nil => simpa using h1
    | cons a l ih =>
      rw [List.prod_cons]
      exact hcl _ (hG _ (hl a (by simp))) _ (ih (fun g hg => hl g (by simp [hg])))
  have hneg : ∀ s ∈ S, -s ∈ S := fun s hs => by simpa using hcl _ hm _ hs
  rcases hcases with ⟨hn, hd', rfl⟩ | ⟨hn, hd', rfl⟩ | ⟨hn, hi, hd', rfl⟩ | ⟨hn, hd', rfl⟩
  · omega
  · have : (Sym.ops ⟨S, true⟩).toFinset = S.toFinset := by
      ext x
      simp only [Sym.ops, if_true, List.mem_toFinset, List.mem_append, mem_map_neg]
      exact ⟨fun h => h.elim id (fun h => by simpa using hneg _ h), Or.inl⟩
    rw [distinctCount, this, List.toFinset_card_of_nodup hnd]
    simp [Sym.len, mul_comm]
  · exact absurd hneg hn
  · exact absurd hneg hn

/-- the documented square group built with `inversion=True` reports 16 instead of 8 operations. -/
example : ∃ σ, fromGenerator [rot4, mirY] true = .ok σ ∧
    decide (σ.len = 16 ∧ distinctCount σ.ops = 8) = true := okAnd_iff.1 (by decide +kernel)

/-- **C06** `transform(B)` of a constructed symmetry with invertible `B` returns, its operations are exactly
`B s B⁻¹`, length and inversion flag are kept, a group stays a group, and transforming with `B⁻¹` restores it. -/
theorem C06_transform (σ : Sym K d) (hσ : ∃ S inv, mkSym S inv = .ok σ) (B : Mat K d) (hB : B.det ≠ 0) :
    ∃ τ, σ.transform B = .ok τ ∧ (∀ x, x ∈ τ.ops ↔ ∃ s ∈ σ.ops, x = B * s * B⁻¹) ∧
      τ.len = σ.len ∧ τ.inversion = σ.inversion ∧
      (IsMatGroup σ.ops → IsMatGroup τ.ops) ∧ τ.transform B⁻¹ = .ok σ := by
  have hc : σ.Constructed := hσ
  have hu : IsUnit B.det := isUnit_iff_ne_zero.2 hB
  have hBi : B⁻¹ * B = 1 := Matrix.nonsing_inv_mul B hu
  have hiB : B * B⁻¹ = 1 := Matrix.mul_nonsing_inv B hu
  have hdet : ∀ s : Mat K d, (B * s * B⁻¹).det = s.det := by
    intro s
    have h := congrArg Matrix.det hiB
    rw [Matrix.det_mul, Matrix.det_one] at h
    rw [Matrix.det_mul, Matrix.det_mul, mul_comm B.det, mul_assoc, h, mul_one]
  have hcancel : ∀ s : Mat K d, B⁻¹ * (B * s * B⁻¹) * B = s := by
    intro s
    calc B⁻¹ * (B * s * B⁻¹) * B = (B⁻¹ * B) * s * (B⁻¹ * B) := by simp only [Matrix.mul_assoc]
      _ = s := by rw [hBi, Matrix.one_mul, Matrix.mul_one]
  have hm := hc.map (φ := fun s => B * s * B⁻¹) (by simp [hiB]) (by intro s; simp)
    (by
      intro a b _ _ h
      have := congrArg (fun m => B⁻¹ * m * B) h
      simp only [hcancel] at this
      exact this)
    (by intro s hs; rw [hdet]; exact hc.det s hs)
  refine ⟨⟨σ.S.map (fun s => B * s * B⁻¹), σ.inversion⟩, ?_, ?_, ?_, rfl, ?_, ?_⟩
  · simp only [Sym.transform, if_neg hB]; exact hm
  · intro x; exact mem_ops_map (by intro s; simp)
  · simp [Sym.len]
  · intro hg
    have hx : ∀ x, x ∈ Sym.ops ⟨σ.S.map (fun s => B * s * B⁻¹), σ.inversion⟩ ↔
        ∃ s ∈ σ.ops, x = B * s * B⁻¹ := fun x => mem_ops_map (by intro s; simp)
    have hmul : ∀ s t : Mat K d, B * s * B⁻¹ * (B * t * B⁻¹) = B * (s * t) * B⁻¹ := by
      intro s t
      calc B * s * B⁻¹ * (B * t * B⁻¹) = B * s * (B⁻¹ * B) * t * B⁻¹ := by simp only [Matrix.mul_assoc]
        _ = B * (s * t) * B⁻¹ := by rw [hBi, Matrix.mul_one]; simp only [Matrix.mul_assoc]
    refine ⟨(hx 1).2 ⟨1, hg.one_mem, by simp [hiB]⟩, ?_, ?_⟩
    · intro a ha b hb
      obtain ⟨s, hs, rfl⟩ := (hx a).1 ha
      obtain ⟨t, ht, rfl⟩ := (hx b).1 hb
      exact (hx _).2 ⟨s * t, hg.mul_mem s hs t ht, hmul s t⟩
    · intro a ha
      obtain ⟨s, hs, rfl⟩ := (hx a).1 ha
      obtain ⟨t, ht, h1, h2⟩ := hg.inv_mem s hs
      exact ⟨_, (hx _).2 ⟨t, ht, rfl⟩, by rw [hmul, h1]; simp [hiB], by rw [hmul, h2]; simp [hiB]⟩
  · have hBi0 : (B⁻¹).det ≠ 0 := by
      intro h
      have := congrArg Matrix.det hiB
      rw [Matrix.det_mul, h, mul_zero, Matrix.det_one] at this
      exact zero_ne_one this
    simp only [Sym.transform, if_neg hBi0, List.map_map]
    have : ((fun s => B⁻¹ * s * B⁻¹⁻¹) ∘ fun s => B * s * B⁻¹) = (id : Mat K d → Mat K d) := by
      funext s
      simp only [Function.comp, Matrix.nonsing_inv_nonsing_inv B hu, hcancel, id]
    rw [this, List.map_id]
    exact hc.fix

example : (∃ S inv, mkSym S inv = .ok (⟨[1, rot4], false⟩ : Sym ℚ 2)) ∧ shear.det ≠ 0 := by
  constructor
  · exact ⟨[1, rot4], false, by decide +kernel⟩
  · decide +kernel

/-- **C06** `dual()` never fails on a constructed symmetry, its operations are the inverse transposes, the length
and the flag are kept, and applying it twice gives the original symmetry; the map is multiplicative. -/
theorem C06_dual (σ : Sym K d) (hσ : ∃ S inv, mkSym S inv = .ok σ) :
    ∃ τ, σ.dual = .ok τ ∧ (∀ x, x ∈ τ.ops ↔ ∃ s ∈ σ.ops, x * s.transpose = 1) ∧
      τ.len = σ.len ∧ τ.inversion = σ.inversion ∧ τ.dual = .ok σ ∧
      (IsMatGroup σ.ops → IsMatGroup τ.ops) := by
  have hc : σ.Constructed := hσ
  have hut : ∀ s : Mat K d, |s.det| = 1 → IsUnit s.transpose.det := by
    intro s h; rw [Matrix.det_transpose]; exact isUnit_det_of_abs h
  have hneg : ∀ s : Mat K d, ((-s).transpose)⁻¹ = -(s.transpose)⁻¹ := by
    intro s
    rw [Matrix.transpose_neg]
    by_cases h : IsUnit s.transpose.det
    · refine Matrix.inv_eq_left_inv ?_
      rw [neg_mul_neg]; exact Matrix.nonsing_inv_mul _ h
    · rw [Matrix.nonsing_inv_apply_not_isUnit _ h, Matrix.nonsing_inv_apply_not_isUnit _ ?_, neg_zero]
      rw [Matrix.det_neg]
      intro h'
      exact h (isUnit_of_mul_isUnit_right h')
  have hdd : ∀ s : Mat K d, |s.det| = 1 → ((s.transpose)⁻¹.transpose)⁻¹ = s := by
    intro s h
    rw [Matrix.transpose_nonsing_inv, Matrix.transpose_transpose,
      Matrix.nonsing_inv_nonsing_inv _ (isUnit_det_of_abs h)]
  have hm := hc.map (φ := fun s => (s.transpose)⁻¹) (by simp) hneg
    (by
      intro a b ha hb h
      have := congrArg (fun m : Mat K d => (m.transpose)⁻¹) h
      simp only [hdd a ha, hdd b hb] at this
      exact this)
    (by
      intro s hs
      have := congrArg (fun m : Mat K d => |m.det|) (Matrix.nonsing_inv_mul _ (hut s (hc.det s hs)))
      simp only [Matrix.det_mul, abs_mul, Matrix.det_transpose, Matrix.det_one, abs_one, hc.det s hs, mul_one] at this
      exact this)
  have hx : ∀ x, x ∈ Sym.ops ⟨σ.S.map (fun s : Mat K d => (s.transpose)⁻¹), σ.inversion⟩ ↔
      ∃ s ∈ σ.ops, x = (s.transpose)⁻¹ := fun x => mem_ops_map hneg
  refine ⟨⟨σ.S.map (fun s : Mat K d => (s.transpose)⁻¹), σ.inversion⟩, hm, ?_, by simp [Sym.len], rfl, ?_, ?_⟩
  · intro x
    rw [hx]
    constructor
    · rintro ⟨s, hs, rfl⟩
      exact ⟨s, hs, Matrix.nonsing_inv_mul _ (hut s (hc.det_ops s hs))⟩
    · rintro ⟨s, hs, h⟩
      exact ⟨s, hs, (Matrix.inv_eq_left_inv h).symm⟩
  · have : ∀ s ∈ σ.S, ((fun s : Mat K d => (s.transpose)⁻¹) ∘ fun s => (s.transpose)⁻¹) s = id s :=
      fun s hs => hdd s (hc.det s hs)
    simp only [Sym.dual, List.map_map]
    rw [List.map_congr_left this, List.map_id]
    exact hc.fix
  · intro hg
    have hmul : ∀ s t : Mat K d, (s.transpose)⁻¹ * (t.transpose)⁻¹ = ((s * t).transpose)⁻¹ := by
      intro s t
      rw [Matrix.transpose_mul, Matrix.mul_inv_rev]
    refine ⟨(hx 1).2 ⟨1, hg.one_mem, by simp⟩, ?_, ?_⟩
    · intro a ha b hb
      obtain ⟨s, hs, rfl⟩ := (hx a).1 ha
      obtain ⟨t, ht, rfl⟩ := (hx b).1 hb
      exact (hx _).2 ⟨s * t, hg.mul_mem s hs t ht, hmul s t⟩
    · intro a ha
      obtain ⟨s, hs, rfl⟩ := (hx a).1 ha
      obtain ⟨t, ht, h1, h2⟩ := hg.inv_mem s hs
      exact ⟨_, (hx _).2 ⟨t, ht, rfl⟩, by rw [hmul, h1]; simp, by rw [hmul, h2]; simp⟩

/-- a non-orthogonal group, for which the dual differs from the group itself -/
example : ∃ S inv, mkSym S inv = .ok (⟨[1, !![1, 1; 0, -1]], false⟩ : Sym ℚ 2) :=
  ⟨[1, !![1, 1; 0, -1]], false, by decide +kernel⟩

/-- `copy()` of a constructed symmetry is the same symmetry. -/
theorem C06_copy (σ : Sym K d) (hσ : ∃ S inv, mkSym S inv = .ok σ) : σ.copy = .ok σ :=
  Sym.Constructed.fix hσ

end TB
