import Mathlib.Tactic.NormNum
import Mathlib.Tactic.FinCases
import Mathlib.Tactic.LinearCombination
import Verif.Lemmas.UnitaryRep
import Verif.Spec.Group

/-!
# Properties C79–C81: generating, matching and checking unitary representations
-/

set_option linter.unusedSectionVars false

namespace TB.UR
open Spec

variable {K : Type} [Field K] [LinearOrder K] [IsStrictOrderedRing K] {d : ℕ}
variable {F : Type} [Field F] [StarRing F] [DecidableEq F] {N M : ℕ}

/-! Concrete operations used in the examples. -/

/-- quarter turn about the third axis. -/
def rz : Mat ℚ 3 := !![0, 1, 0; -1, 0, 0; 0, 0, 1]
/-- half turn about the third axis. -/
def rz2 : Mat ℚ 3 := !![-1, 0, 0; 0, -1, 0; 0, 0, 1]
/-- cyclic permutation of the axes. -/
def cyc : Mat ℚ 3 := !![0, 1, 0; 0, 0, 1; 1, 0, 0]
/-- quarter turn of the plane, used as matrix of a representation. -/
def j2 : Mat ℚ 2 := !![0, 1; -1, 0]

/-- The products of the generator pairs: all pairs (operation, matrix) that the multiplication law of a representation
forces. -/
def Products (G : List (Mat K d × Mat F N)) : Set (Mat K d × Mat F N) :=
  {p | ∃ l : List (Mat K d × Mat F N), (∀ g ∈ l, g ∈ G) ∧ (l.map Prod.fst).prod = p.1 ∧ (l.map Prod.snd).prod = p.2}

theorem products_eq (G : List (Mat K d × Mat F N)) :
    Products G = (Submonoid.closure {p | p ∈ G} : Set (Mat K d × Mat F N)) := by
  have h1 : ∀ l : List (Mat K d × Mat F N), l.prod.1 = (l.map Prod.fst).prod := by
    intro l; induction l with
    | nil => rfl
    | cons a l ih => simp [ih]
  have h2 : ∀ l : List (Mat K d × Mat F N), l.prod.2 = (l.map Prod.snd).prod := by
    intro l; induction l with
    | nil => rfl
    | cons a l ih => simp [ih]
  ext p
  constructor
  · rintro ⟨l, hl, ha, hb⟩
    have : p = l.prod := Prod.ext (by rw [h1, ha]) (by rw [h2, hb])
    rw [this]
    exact Submonoid.list_prod_mem _ fun g hg => Submonoid.subset_closure (hl g hg)
  · intro hp
    obtain ⟨l, hl, rfl⟩ := Submonoid.exists_list_of_mem_closure hp
    exact ⟨l, hl, (h1 l).symm, (h2 l).symm⟩

theorem zip_map_fst_snd {α β : Type} (P : List (α × β)) : (P.map Prod.fst).zip (P.map Prod.snd) = P := by
  induction P with
  | nil => rfl
  | cons a P ih => simp [ih]

theorem fromGenerator_loop {G : List (Mat K d × Mat F N)} {inversion negate : Bool} {ρ : Rep K F d N}
    (h1 : G.head? = some (1, 1)) (hnd : (G.map Prod.fst).Nodup)
    (h : fromGenerator G inversion negate = .ok ρ) :
    ∃ P : List (Mat K d × Mat F N), (P.map Prod.fst).Nodup ∧ (∃ t, P = 1 :: t) ∧ P.length < 1000 ∧
      (∀ p ∈ P, ∀ q ∈ P, p * q ∈ P) ∧ (∀ p, p ∈ P ↔ p ∈ Products G) ∧
      mkSym (P.map Prod.fst) inversion = .ok ρ.sym ∧ ρ.U = P.map Prod.snd ∧
      ρ.invSplit = (if negate then 0 else N) := by
  cases G with
  | nil => simp at h1
  | cons g t =>
    simp only [List.head?_cons, Option.some.injEq] at h1
    subst h1
    unfold fromGenerator at h
    simp only [List.isEmpty_cons, Bool.false_eq_true, if_false] at h
    cases hl : pairLoop 1000 ((1, 1) :: t) with
    | error e => rw [hl] at h; cases h
    | ok P =>
      rw [hl] at h
      simp only at h
      cases hm : mkSym (P.map Prod.fst) inversion with
      | error e => rw [hm] at h; cases h
      | ok σ =>
        rw [hm] at h
        obtain rfl := Except.ok.inj h
        obtain ⟨a1, a2, a3, a4, a5, a6⟩ := pairLoop_ok (by norm_num) (by simp) hnd ⟨t, rfl⟩ hl
        refine ⟨P, a1, a4, a5, a3, fun p => ?_, hm, rfl, rfl⟩
        rw [products_eq]
        constructor
        · exact a6 p
        · intro hp
          obtain ⟨u, hu⟩ := a4
          let S : Submonoid (Mat K d × Mat F N) :=
            { carrier := {p | p ∈ P}
              mul_mem' := fun {a b} ha hb => a3 a ha b hb
              one_mem' := by simp [hu] }
          have : Submonoid.closure {p | p ∈ (1, 1) :: t} ≤ S := Submonoid.closure_le.2 fun x hx => a2 x hx
          exact this hp

/-- **C79** `from_generator`, called with the identity pair first and with different operations, when it returns: if the
symmetry constructor keeps the list (`-1` is generated only in even dimensions, and in even dimensions the inversion is
either generated or not requested), then the operations and matrices correspond one to one, the pairs are exactly the
products of the generator pairs, operations are listed once, and they form a group; hence `S ↦ U` is a representation. -/
theorem C79_from_generator (G : List (Mat K d × Mat F N)) (inversion negate : Bool) (ρ : Rep K F d N)
    (h1 : G.head? = some (1, 1)) (hnd : (G.map Prod.fst).Nodup)
    (hodd : d % 2 = 1 → ∀ p ∈ Products G, p.1 ≠ -1)
    (heven : d % 2 = 0 → inversion = true → ∃ p ∈ Products G, p.1 = -1)
    (h : fromGenerator G inversion negate = .ok ρ) :
    ρ.sym.S.length = ρ.U.length ∧ ρ.sym.S.Nodup ∧ IsMatGroup ρ.sym.S ∧
    (∀ p, p ∈ ρ.sym.S.zip ρ.U ↔ p ∈ Products G) ∧
    (1, 1) ∈ ρ.sym.S.zip ρ.U ∧
    (∀ p ∈ ρ.sym.S.zip ρ.U, ∀ q ∈ ρ.sym.S.zip ρ.U, (p.1 * q.1, p.2 * q.2) ∈ ρ.sym.S.zip ρ.U) ∧
    ρ.sym.inversion = inversion ∧ ρ.invSplit = (if negate then 0 else N) := by
  obtain ⟨P, a1, ⟨t, ht⟩, -, a3, a4, a5, a6, a7⟩ := fromGenerator_loop h1 hnd h
  have hone : (1 : Mat K d × Mat F N) ∈ P := by rw [ht]; simp
  have hneg : (∀ s ∈ P.map Prod.fst, -s ∈ P.map Prod.fst) ↔ ∃ p ∈ Products G, p.1 = -1 := by
    constructor
    · intro hs
      obtain ⟨p, hp, he⟩ := List.mem_map.1 (hs 1 (List.mem_map.2 ⟨1, hone, rfl⟩))
      exact ⟨p, (a4 p).1 hp, he⟩
    · rintro ⟨p, hp, he⟩ s hs
      obtain ⟨q, hq, rfl⟩ := List.mem_map.1 hs
      exact List.mem_map.2 ⟨p * q, a3 _ ((a4 p).2 hp) _ hq, by simp [he]⟩
  have hfix : mkSym (P.map Prod.fst) inversion = .ok ⟨P.map Prod.fst, inversion⟩ := by
    refine mkSym_fix_iff.2 ⟨?_, ?_, ?_, ?_⟩
    · rw [ht]; rfl
    · exact (mkSym_ok_iff.1 ⟨_, a5⟩).2
    · intro hs
      obtain ⟨p, hp, he⟩ := hneg.1 hs
      by_contra hd
      exact hodd (by omega) p hp he
    · intro hs
      by_cases hd : d % 2 = 1
      · exact Or.inr hd
      · left
        by_contra hi
        exact hs (hneg.2 (heven (by omega) (by simpa using hi)))
  rw [hfix] at a5
  have a5 := Except.ok.inj a5
  have hS : ρ.sym.S = P.map Prod.fst := by rw [← a5]
  have hI : ρ.sym.inversion = inversion := by rw [← a5]
  have hz : ρ.sym.S.zip ρ.U = P := by rw [hS, a6, zip_map_fst_snd]
  have hmul : ∀ a ∈ P.map Prod.fst, ∀ b ∈ P.map Prod.fst, a * b ∈ P.map Prod.fst := by
    intro a ha b hb
    obtain ⟨p, hp, rfl⟩ := List.mem_map.1 ha
    obtain ⟨q, hq, rfl⟩ := List.mem_map.1 hb
    exact List.mem_map.2 ⟨p * q, a3 _ hp _ hq, rfl⟩
  have h1S : 1 ∈ P.map Prod.fst := List.mem_map.2 ⟨1, hone, rfl⟩
  rw [hz]
  refine ⟨by rw [hS, a6]; simp, hS ▸ a1, ?_, a4, hone, a3, hI, a7⟩
  rw [hS]
  exact ⟨h1S, hmul, inv_mem_of_closed hmul h1S (mkSym_ok_iff.1 ⟨_, hfix⟩).2⟩

/-- The fourfold rotations of space with the quarter turns of the plane as matrices. -/
example : ∃ ρ, fromGenerator [(1, 1), (rz, j2)] true true = .ok ρ ∧
    (decide (ρ.sym.S.zip ρ.U = [(1, 1), (rz, j2), (rz * rz, -1), (rz * rz * rz, -j2)]) &&
     decide (ρ.sym.inversion = true ∧ ρ.invSplit = 0)) = true :=
  okAnd_iff.1 (by decide +kernel)

/-- **C79** `from_generator` (identity pair first, different operations) returns exactly when all generators have
`|det| = 1`, there are fewer than 1000 products of generator pairs, and the products assign one matrix to each operation. -/
theorem C79_from_generator_returns_iff (G : List (Mat K d × Mat F N)) (inversion negate : Bool)
    (h1 : G.head? = some (1, 1)) (hnd : (G.map Prod.fst).Nodup) :
    (∃ ρ, fromGenerator G inversion negate = .ok ρ) ↔
      (∀ g ∈ G, |g.1.det| = 1) ∧ (Products G).Finite ∧ (Products G).ncard < 1000 ∧
      (∀ p ∈ Products G, ∀ q ∈ Products G, p.1 = q.1 → p.2 = q.2) := by
  constructor
  · rintro ⟨ρ, h⟩
    obtain ⟨P, a1, ⟨t, ht⟩, alen, a3, a4, a5, a6, a7⟩ := fromGenerator_loop h1 hnd h
    have hset : Products G = {p | p ∈ P} := Set.ext fun p => (a4 p).symm
    refine ⟨?_, ?_, ?_, ?_⟩
    · intro g hg
      have : g ∈ P := (a4 g).2 ⟨[g], by simpa using hg, by simp, by simp⟩
      exact (mkSym_ok_iff.1 ⟨_, a5⟩).2 _ (List.mem_map.2 ⟨g, this, rfl⟩)
    · rw [hset]; exact List.finite_toSet P
    · have : Products G = (P.toFinset : Set (Mat K d × Mat F N)) := by rw [hset]; ext; simp
      rw [this, Set.ncard_coe_finset]
      exact lt_of_le_of_lt (List.toFinset_card_le P) alen
    · intro p hp q hq he
      have := List.inj_on_of_nodup_map a1 ((a4 p).2 hp) ((a4 q).2 hq) he
      rw [this]
  · rintro ⟨hdet, hf, hc, hu⟩
    have hmulP : ∀ a ∈ Products G, ∀ b ∈ Products G, a * b ∈ Products G := by
      rw [products_eq]; exact fun a ha b hb => mul_mem ha hb
    have hGP : ∀ g ∈ G, g ∈ Products G := fun g hg => ⟨[g], by simpa using hg, by simp, by simp⟩
    obtain ⟨P, hP⟩ := pairLoop_succeeds (n := 1000) hmulP hu hf hc hGP
    cases G with
    | nil => simp at h1
    | cons g t =>
      simp only [List.head?_cons, Option.some.injEq] at h1
      subst h1
      obtain ⟨a1, a2, a3, ⟨u, a4⟩, a5, a6⟩ := pairLoop_ok (by norm_num) (by simp) hnd ⟨t, rfl⟩ hP
      obtain ⟨σ, hσ⟩ := (mkSym_ok_iff (S := P.map Prod.fst) (inv := inversion)).2 ⟨by rw [a4]; rfl, by
        intro s hs
        obtain ⟨p, hp, rfl⟩ := List.mem_map.1 hs
        have hp := a6 p hp
        refine Submonoid.closure_induction (motive := fun x _ => |x.1.det| = 1) ?_ ?_ ?_ hp
        · exact fun x hx => hdet x hx
        · simp
        · intro x y _ _ hx hy
          rw [Prod.fst_mul, Matrix.det_mul, abs_mul, hx, hy, mul_one]⟩
      refine ⟨⟨σ, P.map Prod.snd, if negate then 0 else N⟩, ?_⟩
      unfold fromGenerator
      simp only [List.isEmpty_cons, Bool.false_eq_true, if_false, hP, hσ]

/-- Matrices that do not respect the order of the operation are rejected. -/
example : fromGenerator [((1 : Mat ℚ 3), (1 : Mat ℚ 2)), (rz2, j2)] false false = .error .assertionError := by
  decide +kernel

/-- **C79** the exceptions: `IndexError` for an empty list of generators, otherwise `AssertionError` or `ValueError`. -/
theorem C79_from_generator_error (G : List (Mat K d × Mat F N)) (inversion negate : Bool) (e : Err)
    (h : fromGenerator G inversion negate = .error e) :
    (G = [] ∧ e = .indexError) ∨ (G ≠ [] ∧ (e = .assertionError ∨ e = .valueError)) := by
  cases G with
  | nil => left; simp [fromGenerator] at h; exact ⟨rfl, h.symm⟩
  | cons g t =>
    right
    refine ⟨by simp, ?_⟩
    unfold fromGenerator at h
    simp only [List.isEmpty_cons, Bool.false_eq_true, if_false] at h
    cases hl : pairLoop 1000 (g :: t) with
    | error e' =>
      rw [hl] at h
      obtain rfl := Except.error.inj h
      exact Or.inl (pairLoop_error hl)
    | ok P =>
      rw [hl] at h
      simp only at h
      cases hm : mkSym (P.map Prod.fst) inversion with
      | ok σ => rw [hm] at h; cases h
      | error e' =>
        rw [hm] at h
        obtain rfl := Except.error.inj h
        have hP : P ≠ [] := pairLoop_ne_nil (by simp) hl
        exact Or.inr (mkSym_error (by simpa using hP) hm)

/-- A shear generates infinitely many operations. -/
example : fromGenerator [((1 : Mat ℚ 2), (1 : Mat ℚ 1)), (!![2, 0; 0, 1], 1)] false false = .error .valueError ∨
    fromGenerator [((1 : Mat ℚ 2), (1 : Mat ℚ 1)), (!![2, 0; 0, 1], 1)] false false = .error .assertionError := by
  cases h : fromGenerator [((1 : Mat ℚ 2), (1 : Mat ℚ 1)), (!![2, 0; 0, 1], 1)] false false with
  | ok ρ =>
    have := (C79_from_generator_returns_iff _ _ _ (by rfl) (by decide +kernel)).1 ⟨ρ, h⟩
    have := this.1 (!![2, 0; 0, 1], 1) (by simp)
    simp [Matrix.det_fin_two] at this
  | error e =>
    rcases C79_from_generator_error _ _ _ _ h with ⟨h', -⟩ | ⟨-, rfl | rfl⟩
    · cases h'
    · exact Or.inr rfl
    · exact Or.inl rfl

/-- **C79** (disagreement) With an operation listed twice among the generators the loop stops too early: the result of
`from_generator([1, r, r], ...)` for a quarter turn `r` lists the half turn, but not the quarter turn times the half turn. -/
theorem C79_defect_duplicates : ∃ ρ : Rep ℚ ℚ 3 2, fromGenerator [(1, 1), (rz, j2), (rz, j2)] false false = .ok ρ ∧
    rz ∈ ρ.sym.S ∧ rz * rz ∈ ρ.sym.S ∧ rz * (rz * rz) ∉ ρ.sym.S ∧ ¬ IsMatGroup ρ.sym.S := by
  obtain ⟨ρ, h1, h2⟩ := okAnd_iff.1 (show okAnd (fromGenerator [((1 : Mat ℚ 3), (1 : Mat ℚ 2)), (rz, j2), (rz, j2)] false false)
    (fun ρ => decide (rz ∈ ρ.sym.S ∧ rz * rz ∈ ρ.sym.S ∧ rz * (rz * rz) ∉ ρ.sym.S)) = true by decide +kernel)
  have h2 := of_decide_eq_true h2
  exact ⟨ρ, h1, h2.1, h2.2.1, h2.2.2, fun hg => h2.2.2 (hg.mul_mem _ h2.1 _ h2.2.1)⟩

/-- **C79** (disagreement) Without the identity among the generators elements are lost: from a half turn alone the result is
the group of the identity only, which does not contain the generator; from an operation of order three alone nothing is
returned. -/
theorem C79_defect_identity :
    (∃ ρ : Rep ℚ ℚ 3 1, fromGenerator [(rz2, 1)] false false = .ok ρ ∧ ρ.sym.S = [1] ∧ rz2 ∉ ρ.sym.S) ∧
    fromGenerator [(cyc, (1 : Mat ℚ 1))] false false = .error .valueError := by
  refine ⟨?_, by decide +kernel⟩
  obtain ⟨ρ, h1, h2⟩ := okAnd_iff.1 (show okAnd (fromGenerator [(rz2, (1 : Mat ℚ 1))] false false)
    (fun ρ => decide (ρ.sym.S = [1] ∧ rz2 ∉ ρ.sym.S)) = true by decide +kernel)
  exact ⟨ρ, h1, of_decide_eq_true h2⟩

/-- **C79** (disagreement) In the remaining cases the symmetry constructor changes the list of operations but not the list
of matrices: the numbers of operations and of matrices agree exactly when the constructor keeps the list. -/
theorem C79_lengths (G : List (Mat K d × Mat F N)) (inversion negate : Bool) (ρ : Rep K F d N)
    (h1 : G.head? = some (1, 1)) (hnd : (G.map Prod.fst).Nodup)
    (h : fromGenerator G inversion negate = .ok ρ) :
    ρ.sym.S.length = ρ.U.length ↔
      (d % 2 = 1 → ∀ p ∈ Products G, p.1 ≠ -1) ∧ (d % 2 = 0 → inversion = true → ∃ p ∈ Products G, p.1 = -1) := by
  constructor
  · intro hl
    obtain ⟨P, a1, ⟨t, ht⟩, -, a3, a4, a5, a6, a7⟩ := fromGenerator_loop h1 hnd h
    have hone : (1 : Mat K d × Mat F N) ∈ P := by rw [ht]; simp
    obtain ⟨-, -, hc⟩ := mkSym_cases a5
    have hneg : (∃ p ∈ Products G, p.1 = -1) → ∀ s ∈ P.map Prod.fst, -s ∈ P.map Prod.fst := by
      rintro ⟨p, hp, he⟩ s hs
      obtain ⟨q, hq, rfl⟩ := List.mem_map.1 hs
      exact List.mem_map.2 ⟨p * q, a3 _ ((a4 p).2 hp) _ hq, by simp [he]⟩
    have hneg' : (∀ s ∈ P.map Prod.fst, -s ∈ P.map Prod.fst) → ∃ p ∈ Products G, p.1 = -1 := by
      intro hs
      obtain ⟨p, hp, he⟩ := List.mem_map.1 (hs 1 (List.mem_map.2 ⟨1, hone, rfl⟩))
      exact ⟨p, (a4 p).1 hp, he⟩
    simp only [mem_map_neg] at hc
    rcases hc with ⟨hn, hd, he⟩ | ⟨hn, hd, he⟩ | ⟨hn, hi, hd, he⟩ | ⟨hn, hd, he⟩
    · exfalso
      rw [he, a6] at hl
      have hall := List.filter_eq_self.1 (List.filter_sublist.eq_of_length (by simpa using hl) :
        (P.map Prod.fst).filter (fun s => decide (0 < s.det)) = P.map Prod.fst)
      have := hall (-1) (hn 1 (List.mem_map.2 ⟨1, hone, rfl⟩))
      rw [decide_eq_true_eq, det_neg_odd hd, Matrix.det_one] at this
      linarith
    · exact ⟨fun h => by omega, fun _ _ => hneg' hn⟩
    · exfalso
      rw [he, a6] at hl
      simp only [List.length_append, List.length_map] at hl
      have : P.length = 0 := by omega
      rw [List.length_eq_zero_iff] at this
      rw [this] at hone
      simp at hone
    · refine ⟨fun _ p hp hp1 => hn (hneg ⟨p, hp, hp1⟩), fun hd0 hi => ?_⟩
      rcases hd with hd | hd
      · rw [hd] at hi; cases hi
      · omega
  · rintro ⟨ho, he⟩
    exact (C79_from_generator G inversion negate ρ h1 hnd ho he h).1

/-- Requested inversion in the plane with a mirror: four operations, two matrices. -/
example : ∃ ρ : Rep ℚ ℚ 2 1, fromGenerator [(1, 1), (!![1, 0; 0, -1], 1)] true false = .ok ρ ∧
    decide (ρ.sym.S.length = 4 ∧ ρ.U.length = 2) = true :=
  okAnd_iff.1 (by decide +kernel)

/-! ## match_sym -/

/-- **C80** `match_sym` on a representation with as many matrices as (different) operations: it succeeds exactly when the
given symmetry has the same inversion flag and lists the same operations, each once; then the object gets the given symmetry,
the same pairs of operation and matrix in the order of the given symmetry, and the same `inv_split`. Otherwise it raises
`ValueError` and the object is unchanged. -/
theorem C80_match_sym (ρ : Rep K F d N) (σ : Sym K d) (hl : ρ.sym.S.length = ρ.U.length) (hnd : ρ.sym.S.Nodup)
    (hne : ρ.sym.S ≠ []) :
    ((σ.inversion = ρ.sym.inversion ∧ σ.S.Perm ρ.sym.S) ∧ ∃ U, ρ.matchSym σ = (⟨σ, U, ρ.invSplit⟩, .ok ()) ∧
        U.length = σ.S.length ∧ (σ.S.zip U).Perm (ρ.sym.S.zip ρ.U)) ∨
    (¬ (σ.inversion = ρ.sym.inversion ∧ σ.S.Perm ρ.sym.S) ∧ ρ.matchSym σ = (ρ, .error .valueError)) := by
  have horder : ∀ l : List (Mat K d), (∃ p ∈ l, p ∉ ρ.sym.S) → matchOrder ρ.sym.S l = .error .valueError := by
    intro l
    induction l with
    | nil => simp
    | cons p l ih =>
      intro hp
      unfold matchOrder
      by_cases h : p ∈ ρ.sym.S
      · rw [if_pos h]
        have : ∃ p ∈ l, p ∉ ρ.sym.S := by
          obtain ⟨q, hq, hq'⟩ := hp
          rcases List.mem_cons.1 hq with rfl | hq
          · exact absurd h hq'
          · exact ⟨q, hq, hq'⟩
        rw [ih this]
      · rw [if_neg h]
  have horder' : ∀ l : List (Mat K d), (∀ p ∈ l, p ∈ ρ.sym.S) →
      matchOrder ρ.sym.S l = .ok (l.map fun p => ρ.sym.S.idxOf p) := by
    intro l
    induction l with
    | nil => intro _; rfl
    | cons p l ih =>
      intro hp
      unfold matchOrder
      rw [if_pos (hp p (by simp)), ih fun q hq => hp q (by simp [hq])]
      rfl
  have hmapM : ∀ l : List (Mat K d), (∀ p ∈ l, p ∈ ρ.sym.S) →
      (l.map fun p => ρ.sym.S.idxOf p).mapM (fun i => ρ.U[i]?) =
        some (l.map fun p => ρ.U.getD (ρ.sym.S.idxOf p) 0) := by
    intro l
    induction l with
    | nil => intro _; rfl
    | cons p l ih =>
      intro hp
      rw [List.map_cons, List.mapM_cons, ih fun q hq => hp q (by simp [hq])]
      have hi : ρ.sym.S.idxOf p < ρ.U.length := hl ▸ List.idxOf_lt_length_of_mem (hp p (by simp))
      simp [List.getD, hi]
  unfold Rep.matchSym
  by_cases hlen : σ.S.length = ρ.sym.S.length
  swap
  · right
    rw [if_pos hlen]
    exact ⟨fun h => hlen h.2.length_eq, rfl⟩
  rw [if_neg (by simpa using hlen)]
  have hσne : σ.S ≠ [] := by
    intro h
    rw [h] at hlen
    exact hne (List.length_eq_zero_iff.1 hlen.symm)
  rw [if_neg (by simpa using hσne)]
  by_cases hinv : σ.inversion = ρ.sym.inversion
  swap
  · right
    rw [if_pos hinv]
    exact ⟨fun h => hinv h.1, rfl⟩
  rw [if_neg (by simpa using hinv)]
  by_cases hsub : ∀ p ∈ σ.S, p ∈ ρ.sym.S
  swap
  · right
    push Not at hsub
    rw [horder σ.S hsub]
    obtain ⟨p, hp, hp'⟩ := hsub
    exact ⟨fun h => hp' (h.2.subset hp), rfl⟩
  rw [horder' σ.S hsub]
  simp only
  by_cases hσnd : σ.S.Nodup
  swap
  · right
    rw [if_pos]
    · exact ⟨fun h => hσnd (h.2.nodup_iff.2 hnd), rfl⟩
    · intro h
      exact hσnd (List.Nodup.of_map _ h)
  have hperm : σ.S.Perm ρ.sym.S := (hσnd.subperm hsub).perm_of_length_le hlen.ge
  left
  refine ⟨⟨hinv, hperm⟩, σ.S.map fun p => ρ.U.getD (ρ.sym.S.idxOf p) 0, ?_, by simp, ?_⟩
  · rw [if_neg, hmapM σ.S hsub]
    rw [not_not]
    refine List.Nodup.map_on ?_ hσnd
    intro x hx y hy h
    exact (List.idxOf_inj (hsub x hx)).1 h
  · have hz : ∀ l : List (Mat K d), l.zip (l.map fun p => ρ.U.getD (ρ.sym.S.idxOf p) 0) =
        l.map fun p => (p, ρ.U.getD (ρ.sym.S.idxOf p) 0) := by
      intro l; induction l with
      | nil => rfl
      | cons a l ih => rw [List.map_cons, List.zip_cons_cons, ih, List.map_cons]
    rw [hz]
    have hself : ρ.sym.S.map (fun p => (p, ρ.U.getD (ρ.sym.S.idxOf p) 0)) = ρ.sym.S.zip ρ.U := by
      apply List.ext_getElem
      · simp [hl]
      · intro i h1 h2
        simp only [List.length_map] at h1
        simp only [List.getElem_map, List.getElem_zip, Prod.mk.injEq, true_and]
        rw [hnd.idxOf_getElem i h1]
        simp [List.getD, hl ▸ h1]
    rw [← hself]
    exact hperm.map _

theorem mapM_none {A B : Type} (f : A → Option B) (l : List A) (h : ∃ a ∈ l, f a = none) : l.mapM f = none := by
  induction l with
  | nil => simp at h
  | cons a l ih =>
    rw [List.mapM_cons]
    obtain ⟨x, hx, hn⟩ := h
    rcases List.mem_cons.1 hx with rfl | hx
    · rw [hn]; rfl
    · rw [ih ⟨x, hx, hn⟩]
      cases f a <;> rfl

/-- **C80 (defect)** On an object with fewer matrices than (different) operations, `match_sym` with a symmetry that lists the same
operations raises `IndexError`, after it has replaced the symmetry; the matrices then belong to other operations. -/
theorem C80_short_defect (ρ : Rep K F d N) (σ : Sym K d) (hl : ρ.U.length < ρ.sym.S.length) (hnd : ρ.sym.S.Nodup)
    (hi : σ.inversion = ρ.sym.inversion) (hp : σ.S.Perm ρ.sym.S) :
    ρ.matchSym σ = (⟨σ, ρ.U, ρ.invSplit⟩, .error .indexError) := by
  have hsub : ∀ p ∈ σ.S, p ∈ ρ.sym.S := fun p h => hp.subset h
  have horder' : ∀ l : List (Mat K d), (∀ p ∈ l, p ∈ ρ.sym.S) →
      matchOrder ρ.sym.S l = .ok (l.map fun p => ρ.sym.S.idxOf p) := by
    intro l
    induction l with
    | nil => intro _; rfl
    | cons p l ih =>
      intro hp
      unfold matchOrder
      rw [if_pos (hp p (by simp)), ih fun q hq => hp q (by simp [hq])]
      rfl
  have hne : σ.S ≠ [] := by
    intro h
    have := hp.length_eq
    rw [h] at this
    simp only [List.length_nil] at this
    omega
  unfold Rep.matchSym
  rw [if_neg (not_not.2 hp.length_eq), if_neg (by simpa using hne), if_neg (not_not.2 hi), horder' σ.S hsub]
  simp only
  rw [if_neg, mapM_none]
  · refine ⟨ρ.sym.S.idxOf (ρ.sym.S[ρ.U.length]'hl), List.mem_map.2 ⟨_, hp.symm.subset (List.getElem_mem hl), rfl⟩, ?_⟩
    rw [hnd.idxOf_getElem _ hl]
    simp
  · rw [not_not]
    refine List.Nodup.map_on ?_ (hp.nodup_iff.2 hnd)
    intro x hx y hy h
    exact (List.idxOf_inj (hsub x hx)).1 h

/-- `C80_short_defect`: two operations, one matrix. -/
example : (⟨⟨[1, -1], false⟩, [1], 0⟩ : Rep ℚ ℚ 2 1).matchSym ⟨[-1, 1], false⟩ =
    (⟨⟨[-1, 1], false⟩, [1], 0⟩, .error .indexError) :=
  C80_short_defect _ _ (by simp) (by decide +kernel) rfl (List.Perm.swap _ _ _)

/-- The order of the given symmetry is taken over. -/
example : (⟨⟨[1, rz, rz * rz, rz * rz * rz], false⟩, [1, j2, -1, -j2], 2⟩ : Rep ℚ ℚ 3 2).matchSym
      ⟨[1, rz * rz, rz, rz * rz * rz], false⟩ =
    (⟨⟨[1, rz * rz, rz, rz * rz * rz], false⟩, [1, -1, j2, -j2], 2⟩, .ok ()) := by decide +kernel

/-! ## check -/

theorem commute_invOp_iff [CharZero F] (k : ℕ) (u : Mat F N) :
    invOp N k * u = u * invOp N k ↔ ∀ a b, decide (a.val < k) ≠ decide (b.val < k) → u a b = 0 := by
  unfold invOp
  rw [← Matrix.ext_iff]
  constructor
  · intro h a b hab
    have := h a b
    rw [Matrix.diagonal_mul, Matrix.mul_diagonal] at this
    by_cases ha : a.val < k <;> by_cases hb : b.val < k <;> simp [ha, hb] at this hab
    · have h2 : (2 : F) * u a b = 0 := by linear_combination this
      simpa using h2
    · have h2 : (2 : F) * u a b = 0 := by linear_combination -this
      simpa using h2
  · intro h a b
    rw [Matrix.diagonal_mul, Matrix.mul_diagonal]
    by_cases hab : decide (a.val < k) = decide (b.val < k)
    · by_cases ha : a.val < k <;> by_cases hb : b.val < k <;> simp [ha, hb] at hab ⊢
    · rw [h a b hab]; simp

/-- **C81** `check()` answers `True` exactly when the operations are closed under products, the matrix of every listed
operation equal to a product of two operations is the product of their matrices, and, with inversion, no matrix has entries
between the basis states of different parity (the first `inv_split` states and the others). -/
theorem C81_check_iff [CharZero F] (ρ : Rep K F d N) (hl : ρ.sym.S.length = ρ.U.length) :
    ρ.check = true ↔
      (∀ (i : ℕ) (hi : i < ρ.sym.S.length) (j : ℕ) (hj : j < ρ.sym.S.length),
        ρ.sym.S[i] * ρ.sym.S[j] ∈ ρ.sym.S ∧
        ∀ (k : ℕ) (hk : k < ρ.sym.S.length), ρ.sym.S[k] = ρ.sym.S[i] * ρ.sym.S[j] →
          ρ.U[k]'(hl ▸ hk) = ρ.U[i]'(hl ▸ hi) * ρ.U[j]'(hl ▸ hj)) ∧
      (ρ.sym.inversion = true → ∀ u ∈ ρ.U, ∀ a b,
        decide (a.val < ρ.invSplit) ≠ decide (b.val < ρ.invSplit) → u a b = 0) := by
  have hz : ∀ q : Mat K d × Mat F N → Prop, (∀ p ∈ ρ.sym.S.zip ρ.U, q p) ↔
      ∀ i (hi : i < ρ.sym.S.length), q (ρ.sym.S[i], ρ.U[i]'(hl ▸ hi)) := by
    intro q
    constructor
    · intro h i hi
      refine h _ ?_
      rw [List.mem_iff_getElem]
      exact ⟨i, by simp [hi, hl ▸ hi], by simp⟩
    · intro h p hp
      obtain ⟨i, hi, rfl⟩ := List.mem_iff_getElem.1 hp
      rw [List.getElem_zip]
      exact h i (by simp at hi; exact hi.1)
  unfold Rep.check
  simp only [Bool.and_eq_true, Bool.or_eq_true, Bool.not_eq_true', List.all_eq_true, decide_eq_true_eq]
  refine and_congr ?_ ?_
  · rw [hz]
    refine forall_congr' fun i => forall_congr' fun hi => ?_
    rw [hz]
    refine forall_congr' fun j => forall_congr' fun hj => ?_
    unfold checkProd
    simp only [Bool.and_eq_true, Bool.or_eq_true, Bool.not_eq_true', List.all_eq_true, decide_eq_true_eq,
      List.any_eq_true, decide_eq_false_iff_not]
    rw [hz, and_comm]
    refine and_congr ?_ ?_
    · constructor
      · rintro ⟨p, hp, he⟩
        rw [← he]
        exact (List.of_mem_zip hp).1
      · intro h
        obtain ⟨k, hk, he⟩ := List.mem_iff_getElem.1 h
        refine ⟨(ρ.sym.S[k], ρ.U[k]'(hl ▸ hk)), ?_, he⟩
        rw [List.mem_iff_getElem]
        exact ⟨k, by simp [hk, hl ▸ hk], by simp⟩
    · exact forall_congr' fun k => forall_congr' fun hk => imp_iff_not_or.symm
  · simp only [commute_invOp_iff]
    cases ρ.sym.inversion <;> simp

/-- A representation passes, a wrong sign is detected. -/
example : (⟨⟨[1, rz, rz * rz, rz * rz * rz], true⟩, [1, j2, -1, -j2], 0⟩ : Rep ℚ ℚ 3 2).check = true ∧
    (⟨⟨[1, rz, rz * rz, rz * rz * rz], true⟩, [1, j2, 1, -j2], 0⟩ : Rep ℚ ℚ 3 2).check = false ∧
    (⟨⟨[1, rz, rz * rz, rz * rz * rz], true⟩, [1, j2, -1, -j2], 1⟩ : Rep ℚ ℚ 3 2).check = false := by decide +kernel

/-- **C81** (disagreement) `check()` does not look at unitarity, nor at the matrix of the identity: zero matrices pass. -/
theorem C81_defect : ∃ ρ : Rep ℚ ℚ 3 1, ρ.check = true ∧ mkSym ρ.sym.S ρ.sym.inversion = .ok ρ.sym ∧
    ρ.sym.S.length = ρ.U.length ∧ ∀ u ∈ ρ.U, u = 0 :=
  ⟨⟨⟨[1, rz2], true⟩, [0, 0], 0⟩, by decide +kernel, by decide +kernel, by decide +kernel, by decide +kernel⟩

end TB.UR
