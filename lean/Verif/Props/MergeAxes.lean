import Mathlib.Tactic.Ring
import Mathlib.Tactic.Linarith
import Mathlib.Algebra.Order.BigOperators.Group.List
import Verif.Model.MergeAxes

/-!
# C124: `merge_axes`
-/

namespace TB.PropsMergeAxes
open TB.MergeAxes

variable {α : Type}

/-- An index of an array of this shape. -/
def InBounds (shape idx : List ℕ) : Prop := List.Forall₂ (fun s i => i < s) shape idx

/-- An array with as many entries as its shape says. -/
def Consistent (a : Arr α) : Prop := a.data.length = a.shape.prod

/-- The start axis as numpy counts: from the front, or negative from the back. -/
def Starts (start : ℤ) (ndim k : ℕ) : Prop := start = k ∨ start = (k : ℤ) - ndim

theorem ravel_append (s1 s2 i1 i2 : List ℕ) (h : s1.length = i1.length) : ravel (s1 ++ s2) (i1 ++ i2) = ravel s1 i1 * s2.prod + ravel s2 i2 := by
  induction s1 generalizing i1 with
  | nil =>
    cases i1 with
    | nil => simp [ravel]
    | cons => simp at h
  | cons s s1 ih =>
    cases i1 with
    | nil => simp at h
    | cons i i1 =>
      simp only [List.cons_append, ravel, List.prod_append]
      rw [ih i1 (by simpa using h)]
      ring

theorem ravel_lt {s i : List ℕ} (h : InBounds s i) : ravel s i < s.prod := by
  induction h with
  | nil => simp [ravel]
  | @cons s i ss is hi _ ih =>
    simp only [ravel, List.prod_cons]
    calc i * ss.prod + ravel ss is < i * ss.prod + ss.prod := by omega
      _ = (i + 1) * ss.prod := by ring
      _ ≤ s * ss.prod := Nat.mul_le_mul_right _ hi

theorem ravel_surj (s : List ℕ) (q : ℕ) (hq : q < s.prod) : ∃ i, InBounds s i ∧ ravel s i = q := by
  induction s generalizing q with
  | nil => exact ⟨[], .nil, by simp [ravel] at hq ⊢; omega⟩
  | cons s ss ih =>
    rw [List.prod_cons] at hq
    have hp : 0 < ss.prod := Nat.pos_of_ne_zero fun h => by simp [h] at hq
    obtain ⟨i, hi, hr⟩ := ih (q % ss.prod) (Nat.mod_lt _ hp)
    refine ⟨q / ss.prod :: i, .cons ((Nat.div_lt_iff_lt_mul hp).2 hq) hi, ?_⟩
    simp only [ravel]
    rw [hr]
    exact Nat.div_add_mod' q _

theorem ravel_inj {s i j : List ℕ} (hi : InBounds s i) (hj : InBounds s j) (h : ravel s i = ravel s j) : i = j := by
  induction hi generalizing j with
  | nil => cases hj; rfl
  | @cons s a ss is _ his ih =>
    cases hj with
    | @cons _ b _ js _ hjs =>
      simp only [ravel] at h
      have h1 := ravel_lt his
      have h2 := ravel_lt hjs
      have hp : 0 < ss.prod := by omega
      have e1 : a = b := by
        have := congrArg (· / ss.prod) h
        simp only [Nat.mul_comm _ ss.prod, Nat.mul_add_div hp, Nat.div_eq_of_lt h1, Nat.div_eq_of_lt h2] at this
        omega
      subst e1
      rw [ih hjs (by omega)]

theorem value (a : Arr α) (ha : Consistent a) (pre mid post : List ℕ) (hs : a.shape = pre ++ mid ++ post) (hm : mid ≠ []) (start : ℤ)
    (hst : Starts start a.shape.length pre.length) (count : ℤ) (hc : count = mid.length ∨ post = [] ∧ (mid.length : ℤ) ≤ count) :
    mergeAxes a start count = .ok ⟨pre ++ [mid.prod] ++ post, a.data⟩ := by
  have hml : 0 < mid.length := List.length_pos_iff.2 hm
  have hlen : a.shape.length = pre.length + mid.length + post.length := by rw [hs]; simp [Nat.add_assoc]
  have hcp : 1 ≤ count := by rcases hc with h | h <;> omega
  have hk : (if 0 ≤ start then start else a.shape.length + start) = (pre.length : ℤ) := by
    rcases hst with h | h
    · rw [if_pos (by omega)]; exact h
    · rw [if_neg (by omega)]; omega
  unfold mergeAxes
  rw [if_neg (by omega)]
  simp only
  rw [hk, if_neg (by omega), Int.toNat_natCast]
  have h1 : (a.shape.drop pre.length).take count.toNat = mid := by
    rw [hs, List.append_assoc, List.drop_left]
    rcases hc with h | ⟨h, h'⟩
    · rw [show count.toNat = mid.length by omega, List.take_left]
    · rw [h, List.append_nil, List.take_of_length_le (by omega)]
  rw [h1]
  have h2 : del (a.shape.set pre.length mid.prod) (pre.length + 1) (pre.length + count.toNat) = pre ++ [mid.prod] ++ post := by
    unfold del
    obtain ⟨m0, ms, rfl⟩ := List.exists_cons_of_ne_nil hm
    have h3 : a.shape.set pre.length (m0 :: ms).prod = (pre ++ [(m0 :: ms).prod]) ++ (ms ++ post) := by
      rw [hs]; simp
    rw [h3]
    have h4 : pre.length + 1 = (pre ++ [(m0 :: ms).prod]).length := by simp
    rw [h4, List.take_left]
    congr 1
    have h5 : max (pre ++ [(m0 :: ms).prod]).length (pre.length + count.toNat) = (pre ++ [(m0 :: ms).prod]).length + (count.toNat - 1) := by
      simp; omega
    rw [h5, List.drop_append]
    simp only [List.length_cons] at hc
    rcases hc with h | ⟨h, h'⟩
    · rw [show count.toNat - 1 = ms.length by omega]; simp
    · rw [h]; simp; omega
  rw [h2]
  unfold reshape
  rw [if_pos]
  rw [ha, hs]
  simp

/-- **C124** Merging the axes `mid` of an array of shape `pre + mid + post`: the shape of the result, and where every entry goes (the merged axis runs
over the old ones in C order). `count` may be larger than the number of axes left. -/
theorem C124_merge (a : Arr α) (ha : Consistent a) (pre mid post : List ℕ) (hs : a.shape = pre ++ mid ++ post) (hm : mid ≠ []) (start : ℤ)
    (hst : Starts start a.shape.length pre.length) (count : ℤ) (hc : count = mid.length ∨ post = [] ∧ (mid.length : ℤ) ≤ count) :
    ∃ r, mergeAxes a start count = .ok r ∧ r.shape = pre ++ [mid.prod] ++ post ∧ Consistent r ∧
      (∀ i1 i2 i3, InBounds pre i1 → InBounds mid i2 → InBounds post i3 →
        InBounds r.shape (i1 ++ [ravel mid i2] ++ i3) ∧ r.entry (i1 ++ [ravel mid i2] ++ i3) = a.entry (i1 ++ i2 ++ i3)) ∧
      ∀ q, q < mid.prod → ∃! i2, InBounds mid i2 ∧ ravel mid i2 = q := by
  refine ⟨_, value a ha pre mid post hs hm start hst count hc, rfl, ?_, ?_, ?_⟩
  · rw [Consistent, ha, hs]; simp
  · intro i1 i2 i3 h1 h2 h3
    refine ⟨?_, ?_⟩
    · exact List.rel_append (List.rel_append h1 (.cons (ravel_lt h2) .nil)) h3
    · unfold Arr.entry
      simp only
      rw [hs]
      congr 1
      rw [ravel_append _ _ _ _ (by simp [h1.length_eq]), ravel_append _ _ _ _ h1.length_eq,
        ravel_append _ _ _ _ (by simp [h1.length_eq, h2.length_eq]), ravel_append _ _ _ _ h1.length_eq]
      simp [ravel]
  · intro q hq
    obtain ⟨i, hi, hr⟩ := ravel_surj mid q hq
    exact ⟨i, ⟨hi, hr⟩, fun j hj => ravel_inj hj.1 hi (hj.2.trans hr.symm)⟩

/-- **C124** The exceptions: `AssertionError` exactly for a count below one or a start axis outside of the array; never anything else. -/
theorem C124_errors (a : Arr α) (ha : Consistent a) (start count : ℤ) :
    ((∃ e, mergeAxes a start count = .error e) ↔ count < 1 ∨ start < -a.shape.length ∨ a.shape.length ≤ start) ∧
      ∀ e, mergeAxes a start count = .error e → e = .assertionError := by
  by_cases hbad : count < 1 ∨ start < -a.shape.length ∨ a.shape.length ≤ start
  · have : mergeAxes a start count = .error .assertionError := by
      unfold mergeAxes
      by_cases hc : 1 ≤ count
      · rw [if_neg (by omega)]
        simp only
        rw [if_pos]
        split <;> omega
      · rw [if_pos hc]
    exact ⟨⟨fun _ => hbad, fun _ => ⟨_, this⟩⟩, fun e he => by rw [this] at he; exact (Except.error.inj he).symm⟩
  · have hb : 1 ≤ count ∧ -(a.shape.length : ℤ) ≤ start ∧ start < a.shape.length := by omega
    obtain ⟨k, hk, hkl⟩ : ∃ k : ℕ, Starts start a.shape.length k ∧ k < a.shape.length := by
      rcases le_or_gt 0 start with h | h
      · exact ⟨start.toNat, Or.inl (by omega), by omega⟩
      · exact ⟨(a.shape.length + start).toNat, Or.inr (by omega), by omega⟩
    have hok := value a ha (a.shape.take k) ((a.shape.drop k).take count.toNat) ((a.shape.drop k).drop count.toNat)
      (by rw [List.append_assoc, List.take_append_drop, List.take_append_drop])
      (by rw [ne_eq, List.take_eq_nil_iff]; simp; omega) start
      (by rw [List.length_take, Nat.min_eq_left hkl.le]; exact hk) count (by
        rcases le_or_gt count.toNat (a.shape.length - k) with h | h
        · left; simp; omega
        · right; simp; omega)
    refine ⟨⟨fun ⟨e, he⟩ => ?_, fun h => absurd h hbad⟩, fun e he => ?_⟩
    all_goals rw [hok] at he; exact absurd he (by simp)

/-- **C124** The default arguments on a stack of matrices: the last two axes become one, row by row; arrays with fewer than two axes are refused. -/
theorem C124_default (a : Arr α) (ha : Consistent a) :
    (∀ batch r c, a.shape = batch ++ [r, c] → ∃ m, mergeAxes a (-2) 2 = .ok m ∧ m.shape = batch ++ [r * c] ∧
      ∀ b i j, InBounds batch b → i < r → j < c → m.entry (b ++ [i * c + j]) = a.entry (b ++ [i, j])) ∧
    (a.shape.length < 2 → mergeAxes a (-2) 2 = .error .assertionError) := by
  constructor
  · intro batch r c hs
    obtain ⟨m, e, hsh, -, hent, -⟩ := C124_merge a ha batch [r, c] [] (by simp [hs]) (by simp) (-2) (Or.inr (by rw [hs]; simp)) 2 (Or.inl rfl)
    refine ⟨m, e, by simpa using hsh, fun b i j hb hi hj => ?_⟩
    have := (hent b [i, j] [] hb (.cons hi (.cons hj .nil)) .nil).2
    simpa [ravel] using this
  · intro h
    have h1 := C124_errors a ha (-2) 2
    obtain ⟨e, he⟩ := h1.1.2 (Or.inr (Or.inl (by omega)))
    rw [he, h1.2 e he]

/-- **C124** Merging one axis changes nothing; merging twice at the same place is merging once. -/
theorem C124_compose (a : Arr α) (ha : Consistent a) (k : ℕ) :
    (k < a.shape.length → mergeAxes a k 1 = .ok a) ∧
    ∀ c1 c2 : ℕ, 1 ≤ c1 → 1 ≤ c2 → k + c1 + c2 ≤ a.shape.length + 1 → ∃ b, mergeAxes a k c1 = .ok b ∧ mergeAxes b k c2 = mergeAxes a k (c1 + c2 - 1 : ℕ) := by
  constructor
  · intro h
    have := value a ha (a.shape.take k) [a.shape[k]] (a.shape.drop (k + 1)) (by simp) (by simp) k
      (Or.inl (by simp; omega)) 1 (Or.inl rfl)
    rw [this]
    simp
  · intro c1 c2 h1 h2 hk
    have e1 := value a ha (a.shape.take k) ((a.shape.drop k).take c1) (a.shape.drop (k + c1))
      (by rw [List.append_assoc, ← List.drop_drop, List.take_append_drop, List.take_append_drop])
      (by rw [ne_eq, List.take_eq_nil_iff]; simp; omega) k (Or.inl (by simp; omega)) c1 (Or.inl (by simp; omega))
    refine ⟨_, e1, ?_⟩
    have hb : Consistent (⟨a.shape.take k ++ [((a.shape.drop k).take c1).prod] ++ a.shape.drop (k + c1), a.data⟩ : Arr α) := by
      have h3 : a.shape.prod = (a.shape.take k ++ ((a.shape.drop k).take c1 ++ a.shape.drop (k + c1))).prod := by
        rw [← List.drop_drop, List.take_append_drop, List.take_append_drop]
      rw [Consistent, ha]
      simp only
      rw [h3]
      simp only [List.prod_append, List.prod_cons, List.prod_nil]
      ring
    have e2 := value _ hb (a.shape.take k) (((a.shape.drop k).take c1).prod :: (a.shape.drop (k + c1)).take (c2 - 1)) (a.shape.drop (k + c1 + (c2 - 1)))
      (by
        have h5 : (a.shape.drop (k + c1)).take (c2 - 1) ++ a.shape.drop (k + c1 + (c2 - 1)) = a.shape.drop (k + c1) := by
          rw [← List.drop_drop (i := c2 - 1) (j := k + c1), List.take_append_drop]
        simp only [List.append_assoc, List.cons_append, List.nil_append, h5]) (by simp) k
      (Or.inl (by simp; omega)) c2 (Or.inl (by simp; omega))
    rw [e2]
    have e3 := value a ha (a.shape.take k) ((a.shape.drop k).take (c1 + (c2 - 1))) (a.shape.drop (k + (c1 + (c2 - 1))))
      (by rw [List.append_assoc, ← List.drop_drop, List.take_append_drop, List.take_append_drop])
      (by rw [ne_eq, List.take_eq_nil_iff]; simp; omega) k (Or.inl (by simp; omega)) (c1 + c2 - 1 : ℕ) (Or.inl (by simp; omega))
    rw [e3]
    have h4 : ((a.shape.drop k).take (c1 + (c2 - 1))).prod = ((a.shape.drop k).take c1).prod * ((a.shape.drop (k + c1)).take (c2 - 1)).prod := by
      rw [List.take_add, List.prod_append, List.drop_drop]
    rw [h4, List.prod_cons, Nat.add_assoc]

-- a stack of two 2×3 matrices
example : ∃ m, mergeAxes (⟨[2, 2, 3], List.range 12⟩ : Arr ℕ) (-2) 2 = .ok m ∧ m.shape = [2, 6] ∧ m.entry [1, 5] = some 11 := ⟨_, rfl, rfl, rfl⟩
example : Consistent (⟨[2, 2, 3], List.range 12⟩ : Arr ℕ) ∧ Starts (-3) 3 0 := ⟨by simp [Consistent], Or.inr rfl⟩
example : ∃ b, mergeAxes (⟨[2, 2, 3], List.range 12⟩ : Arr ℕ) (0 : ℕ) (2 : ℕ) = .ok b ∧
    mergeAxes b (0 : ℕ) (2 : ℕ) = mergeAxes ⟨[2, 2, 3], List.range 12⟩ (0 : ℕ) (3 : ℕ) :=
  (C124_compose ⟨[2, 2, 3], List.range 12⟩ (by simp [Consistent]) 0).2 2 2 (by norm_num) (by norm_num) (by simp)
example : mergeAxes (⟨[4], List.range 4⟩ : Arr ℕ) (-2) 2 = .error .assertionError := (C124_default _ (by simp [Consistent])).2 (by simp)

end TB.PropsMergeAxes
