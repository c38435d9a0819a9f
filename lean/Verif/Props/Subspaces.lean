import Mathlib.Algebra.BigOperators.Group.List.Lemmas
import Verif.Model.NamedReps
import Verif.Spec.Representation
import Verif.Lemmas.UnitaryRep

/-!
# Property C91: `UnitaryRepresentation.subspaces`
-/

set_option linter.unusedSectionVars false

namespace TB.UR
open Spec Matrix

variable {K : Type} [Field K] [LinearOrder K] [IsStrictOrderedRing K] {d : ℕ}
variable {F : Type} [Field F] [StarRing F] [DecidableEq F] {N : ℕ}

/-- Two basis states are coupled: some matrix of the representation has a nonzero entry between them. -/
def Coupled (ρ : Rep K F d N) (i j : Fin N) : Prop := ∃ u ∈ ρ.U, u i j ≠ 0

/-- The row of `True` exactly at the states that are coupled with `i`. -/
def IsRow (ρ : Rep K F d N) (i : Fin N) (g : List Bool) : Prop :=
  g.length = N ∧ ∀ j : Fin N, g[j.val]? = some true ↔ Coupled ρ i j

theorem occ_row (ρ : Rep K F d N) (i j : Fin N) :
    (ρ.U.any fun u => decide (u i j ≠ 0)) = true ↔ Coupled ρ i j := by
  simp [Coupled]

/-- The row of the occupancy table. -/
def row (ρ : Rep K F d N) (i : Fin N) : List Bool := (List.finRange N).map fun j => ρ.U.any fun u => decide (u i j ≠ 0)

theorem row_getD (ρ : Rep K F d N) (i j : Fin N) : (row ρ i).getD j.val false = true ↔ Coupled ρ i j := by
  rw [← occ_row]
  simp [row, List.getD]

theorem row_length (ρ : Rep K F d N) (i : Fin N) : (row ρ i).length = N := by simp [row]

theorem row_ext (ρ : Rep K F d N) (i k : Fin N) : row ρ i = row ρ k ↔ ∀ j, Coupled ρ i j ↔ Coupled ρ k j := by
  constructor
  · intro h j
    rw [← row_getD, ← row_getD, h]
  · intro h
    unfold row
    refine List.map_congr_left fun j _ => ?_
    rw [Bool.eq_iff_iff, occ_row, occ_row, h]

theorem isRow_iff (ρ : Rep K F d N) (i : Fin N) (g : List Bool) : IsRow ρ i g ↔ g = row ρ i := by
  constructor
  · rintro ⟨h1, h2⟩
    refine List.ext_getElem (by rw [h1, row_length]) fun n hn hn' => ?_
    have hN : n < N := by rw [← h1]; exact hn
    have a := h2 ⟨n, hN⟩
    have b := row_getD ρ i ⟨n, hN⟩
    simp only [List.getElem?_eq_getElem hn, Option.some.injEq] at a
    simp only [List.getD, List.getElem?_eq_getElem hn', Option.getD_some] at b
    rw [Bool.eq_iff_iff, a, b]
  · rintro rfl
    refine ⟨row_length ρ i, fun j => ?_⟩
    rw [← row_getD]
    have hj : j.val < (row ρ i).length := by rw [row_length]; exact j.2
    simp [List.getD, List.getElem?_eq_getElem hj]

theorem occupancy_eq (ρ : Rep K F d N) : ρ.occupancy = (List.finRange N).map (row ρ) := rfl

/-- The groups found by `np.unique`. -/
def groupsOf (ρ : Rep K F d N) : List (List Bool) := ρ.occupancy.dedup.insertionSort fun a b => rowLe a b

theorem groups_perm (ρ : Rep K F d N) : (groupsOf ρ).Perm ρ.occupancy.dedup := List.perm_insertionSort _ _

theorem mem_groups (ρ : Rep K F d N) (g : List Bool) : g ∈ groupsOf ρ ↔ ∃ i, g = row ρ i := by
  rw [(groups_perm ρ).mem_iff, List.mem_dedup, occupancy_eq, List.mem_map]
  simp [eq_comm]

theorem groups_nodup (ρ : Rep K F d N) : (groupsOf ρ).Nodup := (groups_perm ρ).nodup_iff.2 (List.nodup_dedup _)

theorem column (ρ : Rep K F d N) (hrefl : ∀ i, Coupled ρ i i) (j : Fin N) :
    ((groupsOf ρ).countP fun g => g.getD j.val false) = 1 ↔ ∀ i, Coupled ρ i j → row ρ i = row ρ j := by
  constructor
  · intro h i hij
    rw [List.countP_eq_length_filter] at h
    obtain ⟨x, hx⟩ := List.length_eq_one_iff.1 h
    have h1 : row ρ i ∈ (groupsOf ρ).filter fun g => g.getD j.val false :=
      List.mem_filter.2 ⟨(mem_groups ρ _).2 ⟨i, rfl⟩, (row_getD ρ i j).2 hij⟩
    have h2 : row ρ j ∈ (groupsOf ρ).filter fun g => g.getD j.val false :=
      List.mem_filter.2 ⟨(mem_groups ρ _).2 ⟨j, rfl⟩, (row_getD ρ j j).2 (hrefl j)⟩
    rw [hx, List.mem_singleton] at h1 h2
    rw [h1, h2]
  · intro h
    have : ((groupsOf ρ).countP fun g => g.getD j.val false) = (groupsOf ρ).countP fun g => g == row ρ j := by
      refine List.countP_congr fun g hg => ?_
      obtain ⟨i, rfl⟩ := (mem_groups ρ g).1 hg
      rw [row_getD, beq_iff_eq]
      exact ⟨h i, fun e => by
        rw [row_ext] at e
        exact (e j).2 (hrefl j)⟩
    rw [this]
    exact List.count_eq_one_of_mem (groups_nodup ρ) ((mem_groups ρ _).2 ⟨j, rfl⟩)

theorem rowsum (ρ : Rep K F d N) (he : Equivalence (Coupled ρ)) (g : List Bool) (hg : g ∈ groupsOf ρ) :
    g.count true = ρ.occupancy.count g := by
  obtain ⟨i, rfl⟩ := (mem_groups ρ g).1 hg
  have hrow : ∀ j, row ρ j = row ρ i ↔ Coupled ρ i j := by
    intro j
    rw [row_ext]
    constructor
    · intro h; exact (h j).1 (he.refl j)
    · intro h k; exact ⟨fun hk => he.trans h hk, fun hk => he.trans (he.symm h) hk⟩
  rw [occupancy_eq]
  conv_lhs => rw [row]
  rw [List.count, List.count, List.countP_map, List.countP_map]
  refine List.countP_congr fun j _ => ?_
  simp only [Function.comp_apply, beq_iff_eq]
  rw [occ_row, hrow]

theorem subspaces_eq (ρ : Rep K F d N) : ρ.subspaces =
    if ((groupsOf ρ).map fun g => g.count true) = (groupsOf ρ).map (fun g => ρ.occupancy.count g) ∧
      ((List.range N).all fun j => decide (((groupsOf ρ).countP fun g => g.getD j false) = 1)) = true then
      .ok (groupsOf ρ, (groupsOf ρ).map fun g => ρ.occupancy.count g)
    else .error .assertionError := rfl

theorem rowLe_total : ∀ a b : List Bool, rowLe a b = true ∨ rowLe b a = true
  | [], _ => by simp [rowLe]
  | _ :: _, [] => by simp [rowLe]
  | a :: l, b :: m => by
    have := rowLe_total l m
    cases a <;> cases b <;> simp [rowLe] <;> exact this

theorem rowLe_trans : ∀ a b c : List Bool, rowLe a b = true → rowLe b c = true → rowLe a c = true
  | [], _, _ => by simp [rowLe]
  | _ :: _, [], _ => by simp [rowLe]
  | _ :: _, _ :: _, [] => by simp [rowLe]
  | a :: l, b :: m, c :: n => by
    have := rowLe_trans l m n
    cases a <;> cases b <;> cases c <;> simp [rowLe] <;> exact this

instance : Std.Total fun a b : List Bool => rowLe a b = true := ⟨rowLe_total⟩
instance : IsTrans (List Bool) fun a b => rowLe a b = true := ⟨rowLe_trans⟩

/-- **C91** If the identity is among the matrices, `subspaces()` returns exactly if the coupling of basis states is an equivalence
relation; otherwise it raises `AssertionError`. -/
theorem C91_returns (ρ : Rep K F d N) (h1 : 1 ∈ ρ.U) :
    ((∃ r, ρ.subspaces = .ok r) ↔ Equivalence (Coupled ρ)) ∧
    (¬ Equivalence (Coupled ρ) → ρ.subspaces = .error .assertionError) := by
  have hrefl : ∀ i, Coupled ρ i i := fun i => ⟨1, h1, by simp⟩
  have hcol : (∀ j : Fin N, ((groupsOf ρ).countP fun g => g.getD j.val false) = 1) ↔ Equivalence (Coupled ρ) := by
    simp only [column ρ hrefl]
    constructor
    · intro h
      refine ⟨hrefl, fun {i j} hij => ?_, fun {i j k} hij hjk => ?_⟩
      · exact ((row_ext ρ i j).1 (h j i hij) i).1 (hrefl i)
      · exact ((row_ext ρ i j).1 (h j i hij) k).2 hjk
    · intro he j i hij
      rw [row_ext]
      exact fun k => ⟨fun hk => he.trans (he.symm hij) hk, fun hk => he.trans hij hk⟩
  have hcond : (((groupsOf ρ).map fun g => g.count true) = (groupsOf ρ).map (fun g => ρ.occupancy.count g) ∧
      ((List.range N).all fun j => decide (((groupsOf ρ).countP fun g => g.getD j false) = 1)) = true) ↔
      Equivalence (Coupled ρ) := by
    rw [List.all_eq_true]
    constructor
    · rintro ⟨-, h⟩
      exact hcol.1 fun j => of_decide_eq_true (h j.val (List.mem_range.2 j.2))
    · intro he
      refine ⟨List.map_congr_left fun g hg => rowsum ρ he g hg, fun j hj => ?_⟩
      exact decide_eq_true (hcol.2 he ⟨j, List.mem_range.1 hj⟩)
  rw [subspaces_eq]
  constructor
  · constructor
    · rintro ⟨r, hr⟩
      split_ifs at hr with hif
      · exact hcond.1 hif
    · intro he
      exact ⟨_, if_pos (hcond.2 he)⟩
  · intro hne
    exact if_neg fun hif => hne (hcond.1 hif)

/-- **C91** The result: one row for each class of coupled states, with `True` at the members of the class, each once;
and the sizes of the classes. -/
theorem C91_result (ρ : Rep K F d N) (groups : List (List Bool)) (counts : List ℕ) (h : ρ.subspaces = .ok (groups, counts)) :
    groups.Nodup ∧ groups.Pairwise (fun a b => rowLe a b = true) ∧
    (∀ g, g ∈ groups ↔ ∃ i, IsRow ρ i g) ∧ counts = groups.map (fun g => g.count true) ∧ counts.sum = N := by
  rw [subspaces_eq] at h
  split_ifs at h with hif
  have h' := Except.ok.inj h
  obtain ⟨rfl, rfl⟩ := Prod.mk.inj h'
  refine ⟨groups_nodup ρ, List.pairwise_insertionSort _ _, fun g => ?_, hif.1.symm, ?_⟩
  · rw [mem_groups]
    simp only [isRow_iff]
  · have : ρ.occupancy.length = N := by simp [Rep.occupancy]
    rw [((groups_perm ρ).map _).sum_eq]
    refine Eq.trans ?_ this
    have key : ∀ l : List (List Bool), ∀ m : List (List Bool), m.Nodup → (∀ x ∈ l, x ∈ m) →
        (m.map fun g => l.count g).sum = l.length := by
      intro l
      induction l with
      | nil => intro m _ _; simp
      | cons a l ih =>
        intro m hm hl
        have h1 := ih m hm fun x hx => hl x (List.mem_cons_of_mem _ hx)
        have h2 : (m.map fun g => (a :: l).count g).sum = (m.map fun g => l.count g).sum + m.count a := by
          clear h1 hl hm
          induction m with
          | nil => simp
          | cons b m ihm =>
            simp only [List.map_cons, List.sum_cons, List.count_cons] at ihm ⊢
            rw [ihm]
            by_cases hab : a = b
            · subst hab; simp; omega
            · simp [hab, Ne.symm hab]; omega
        rw [h2, h1, List.count_eq_one_of_mem hm (hl a List.mem_cons_self), List.length_cons]
    exact key _ _ (List.nodup_dedup _) fun x hx => List.mem_dedup.2 hx

/-- A one dimensional and a two dimensional part, the latter in the states 0 and 2. -/
def exSub : Rep ℚ ℚ 3 3 := ⟨⟨[1, rz2s], false⟩, [1, !![0, 0, 1; 0, -1, 0; 1, 0, 0]], 3⟩
where rz2s : Mat ℚ 3 := !![-1, 0, 0; 0, -1, 0; 0, 0, 1]

example : exSub.subspaces = .ok ([[false, true, false], [true, false, true]], [1, 2]) ∧ 1 ∈ exSub.U := by decide +kernel

/-- A unitary representation of a half turn on four states that is no direct sum in the given basis. -/
def exSub4 : Rep ℚ ℚ 3 4 := ⟨⟨[1, !![-1, 0, 0; 0, -1, 0; 0, 0, 1]], false⟩,
  [1, !![0, 3/5, 0, 4/5; 3/5, 0, -(4/5), 0; 0, -(4/5), 0, 3/5; 4/5, 0, 3/5, 0]], 4⟩

/-- **C91** The restriction: for the unitary representation `exSub4` of the group of a half turn the coupling is not transitive and
`AssertionError` is raised. -/
theorem C91_not_transitive : IsRep exSub4 ∧ IsUnitary exSub4 ∧ exSub4.subspaces = .error .assertionError ∧
    Coupled exSub4 0 1 ∧ Coupled exSub4 1 2 ∧ ¬ Coupled exSub4 0 2 := by
  refine ⟨⟨by decide +kernel, by decide +kernel, by decide +kernel, by decide +kernel, (fun h => by cases h), by decide +kernel⟩, ?_,
    by decide +kernel, ?_, ?_, ?_⟩
  · have : (exSub4.U.all fun u => decide (u * u.conjTranspose = 1)) = true := by decide +kernel
    exact fun u hu => of_decide_eq_true (List.all_eq_true.1 this u hu)
  all_goals rw [← occ_row]; decide +kernel

end TB.UR
