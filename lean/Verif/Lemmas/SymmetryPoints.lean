import Mathlib.Tactic.Ring
import Mathlib.Tactic.Linarith
import Mathlib.Tactic.FieldSimp
import Mathlib.Tactic.NormNum
import Mathlib.Algebra.BigOperators.Group.Finset.Basic
import Mathlib.Algebra.Order.BigOperators.Group.List
import Mathlib.Algebra.BigOperators.Ring.Finset
import Mathlib.Algebra.Order.BigOperators.Group.Finset
import Verif.Model.SymmetryPoints
import Verif.Lemmas.Symmetry

/-! Helper lemmas for symmetry operations acting on points. -/

set_option linter.unusedSectionVars false

namespace TB
open Spec

section sorting
variable {α β : Type} [LinearOrder β]

theorem stableSort_perm (key : α → β) (l : List α) : (stableSort key l).Perm l :=
  List.perm_insertionSort _ _

theorem mem_stableSort {key : α → β} {l : List α} {x : α} : x ∈ stableSort key l ↔ x ∈ l :=
  (stableSort_perm key l).mem_iff

/-- A stable sort refines the order that was there before. -/
theorem stableSort_pairwise {key : α → β} {R : α → α → Prop} {l : List α} (h : l.Pairwise R) :
    (stableSort key l).Pairwise (fun a b => key a < key b ∨ (key a = key b ∧ R a b)) := by
  unfold stableSort
  induction l with
  | nil => simp
  | cons a l ih =>
    rw [List.pairwise_cons] at h
    have ih := ih h.2
    have hmem : ∀ b ∈ l.insertionSort (fun a b => key a ≤ key b), R a b := by
      intro b hb; exact h.1 b ((List.perm_insertionSort _ l).mem_iff.1 hb)
    rw [List.insertionSort_cons]
    generalize l.insertionSort (fun a b => key a ≤ key b) = m at ih hmem
    induction m with
    | nil => simp
    | cons b m ihm =>
      rw [List.pairwise_cons] at ih
      simp only [List.orderedInsert]
      split_ifs with hab
      · refine List.pairwise_cons.2 ⟨?_, List.pairwise_cons.2 ih⟩
        intro c hc
        rcases List.mem_cons.1 hc with rfl | hc
        · rcases lt_or_eq_of_le hab with h | h
          · exact Or.inl h
          · exact Or.inr ⟨h, hmem _ (by simp)⟩
        · have hbc : key b ≤ key c := by
            rcases ih.1 c hc with h | h
            · exact h.le
            · exact h.1.le
          rcases lt_or_eq_of_le (hab.trans hbc) with h | h
          · exact Or.inl h
          · exact Or.inr ⟨h, hmem _ (by simp [hc])⟩
      · refine List.pairwise_cons.2 ⟨?_, ihm ih.2 (fun c hc => hmem c (by simp [hc]))⟩
        intro c hc
        rw [List.mem_orderedInsert] at hc
        rcases hc with rfl | hc
        · exact Or.inl (not_le.1 hab)
        · exact ih.1 c hc

end sorting

variable {K : Type} [Field K] [LinearOrder K] [IsStrictOrderedRing K] {d : ℕ}

theorem sortCoords_perm {α : Type} (κ : K → K) (pt : α → Vec K d) (l : List α) :
    (sortCoords κ pt l).Perm l := by
  unfold sortCoords
  generalize List.finRange d = is
  induction is generalizing l with
  | nil => exact List.Perm.refl _
  | cons i is ih => exact (ih _).trans (stableSort_perm _ _)

/-- After the sorts, two entries that are in both orders have equal keys in all coordinates; the order depends on
the points only. -/
theorem sortCoords_pairwise {α : Type} (κ : K → K) (pt : α → Vec K d) (l : List α) :
    ∃ T : α → α → Prop, (sortCoords κ pt l).Pairwise T ∧
      (∀ a b, T a b → T b a → ∀ i, κ (pt a i) = κ (pt b i)) ∧
      (∀ a b c, pt a = pt b → T c a → T c b) := by
  have main : ∀ (is : List (Fin d)) (l : List α) (R : α → α → Prop) (done : Set (Fin d)),
      l.Pairwise R → (∀ a b, R a b → R b a → ∀ i ∈ done, κ (pt a i) = κ (pt b i)) →
      (∀ a b c, pt a = pt b → R c a → R c b) →
      ∃ T : α → α → Prop,
        (is.foldl (fun l i => stableSort (fun a => κ (pt a i)) l) l).Pairwise T ∧
        (∀ a b, T a b → T b a → ∀ i, (i ∈ done ∨ i ∈ is) → κ (pt a i) = κ (pt b i)) ∧
        (∀ a b c, pt a = pt b → T c a → T c b) := by
    intro is
    induction is with
    | nil =>
      intro l R done h1 h2 h3
      exact ⟨R, h1, fun a b h h' i hi => h2 a b h h' i (by simpa using hi), h3⟩
    | cons j is ih =>
      intro l R done h1 h2 h3
      obtain ⟨T, hT1, hT2, hT3⟩ := ih (stableSort (fun a => κ (pt a j)) l) _ (done ∪ {j})
        (stableSort_pairwise h1) (by
          intro a b hab hba i hi
          rcases hab with hab | ⟨hk, hab⟩
          · rcases hba with hba | ⟨hk', -⟩
            · exact absurd hab (not_lt.2 hba.le)
            · rw [hk'] at hab; exact absurd hab (lt_irrefl _)
          · rcases hba with hba | ⟨-, hba⟩
            · rw [hk] at hba; exact absurd hba (lt_irrefl _)
            · rcases hi with hi | hi
              · exact h2 a b hab hba i hi
              · rw [Set.mem_singleton_iff] at hi; rw [hi]; exact hk)
        (by
          intro a b c hab h
          rw [← hab]
          rcases h with h | ⟨h, h'⟩
          · exact Or.inl h
          · exact Or.inr ⟨h, h3 a b c hab h'⟩)
      refine ⟨T, hT1, fun a b h h' i hi => hT2 a b h h' i ?_, hT3⟩
      rcases hi with hi | hi
      · exact Or.inl (Or.inl hi)
      · rcases List.mem_cons.1 hi with rfl | hi
        · exact Or.inl (Or.inr rfl)
        · exact Or.inr hi
  obtain ⟨T, h1, h2, h3⟩ := main (List.finRange d) l (fun _ _ => True) ∅
    (List.pairwise_of_forall (fun _ _ => trivial)) (by intro a b _ _ i hi; cases hi)
    (fun _ _ _ _ h => h)
  exact ⟨T, h1, fun a b h h' i => h2 a b h h' i (Or.inr (List.mem_finRange i)), h3⟩

theorem dedupAdj_sublist {α : Type} (pt : α → Vec K d) (p : α) (l : List α) :
    (dedupAdj pt p l).Sublist l := by
  induction l generalizing p with
  | nil => simp [dedupAdj]
  | cons x l ih =>
    simp only [dedupAdj]
    split_ifs
    · exact (ih x).cons x
    · exact (ih x).cons_cons x

/-- every point survives the removal of adjacent duplicates -/
theorem mem_dedupAdj {α : Type} (pt : α → Vec K d) (p : α) (l : List α) :
    ∀ y ∈ l, ∃ z ∈ p :: dedupAdj pt p l, pt z = pt y := by
  induction l generalizing p with
  | nil => simp
  | cons x l ih =>
    intro y hy
    simp only [dedupAdj]
    rcases List.mem_cons.1 hy with rfl | hy
    · split_ifs with h
      · exact ⟨p, by simp, h⟩
      · exact ⟨y, by simp, rfl⟩
    · obtain ⟨z, hz, he⟩ := ih x y hy
      split_ifs with h
      · rcases List.mem_cons.1 hz with rfl | hz
        · exact ⟨p, by simp, h.trans he⟩
        · exact ⟨z, by simp [hz], he⟩
      · exact ⟨z, by simp at hz ⊢; tauto, he⟩

theorem dedupAdj_nodup {α : Type} (pt : α → Vec K d) (T : α → α → Prop) (p : α) (l : List α)
    (h : (p :: l).Pairwise T)
    (hanti : ∀ a ∈ p :: l, ∀ b ∈ p :: l, T a b → T b a → pt a = pt b)
    (hcongr : ∀ a ∈ p :: l, ∀ b ∈ p :: l, ∀ c ∈ p :: l, pt a = pt b → T c a → T c b) :
    ((p :: dedupAdj pt p l).map pt).Nodup := by
  induction l generalizing p with
  | nil => simp [dedupAdj]
  | cons x l ih =>
    have hx := ih x (List.pairwise_cons.1 h).2
      (fun a ha b hb => hanti a (by simp at ha ⊢; tauto) b (by simp at hb ⊢; tauto))
      (fun a ha b hb c hc => hcongr a (by simp at ha ⊢; tauto) b (by simp at hb ⊢; tauto) c
        (by simp at hc ⊢; tauto))
    simp only [dedupAdj]
    split_ifs with he
    · rw [List.map_cons, he, ← List.map_cons]; exact hx
    · rw [List.map_cons]
      refine List.nodup_cons.2 ⟨?_, hx⟩
      intro hmem
      obtain ⟨y, hy, hye⟩ := List.mem_map.1 hmem
      have hpx : T p x := (List.pairwise_cons.1 h).1 x (by simp)
      rcases List.mem_cons.1 hy with rfl | hy
      · exact he hye.symm
      · have hyl : y ∈ l := (dedupAdj_sublist pt x l).subset hy
        have hxy : T x y := (List.pairwise_cons.1 (List.pairwise_cons.1 h).2).1 y hyl
        have hxp : T x p := hcongr y (by simp [hyl]) p (by simp) x (by simp) hye hxy
        exact he (hanti p (by simp) x (by simp) hpx hxp)

/-! ### images and orbits -/

theorem mem_images {σ : Sym K d} {k x : Vec K d} :
    x ∈ σ.images k ↔ ∃ s ∈ σ.ops, x = s.mulVec k := by
  unfold Sym.images Sym.ops
  split_ifs with h
  · simp only [List.flatMap_cons, List.flatMap_nil, List.append_nil, List.mem_append, List.mem_map]
    constructor
    · rintro (⟨s, hs, rfl⟩ | ⟨s, hs, rfl⟩)
      · exact ⟨s, Or.inl hs, by simp⟩
      · exact ⟨-s, Or.inr ⟨s, hs, rfl⟩, by simp [Matrix.neg_mulVec]⟩
    · rintro ⟨s, hs | ⟨t, ht, rfl⟩, rfl⟩
      · exact Or.inl ⟨s, hs, by simp⟩
      · exact Or.inr ⟨t, ht, by simp [Matrix.neg_mulVec]⟩
  · simp only [List.flatMap_cons, List.flatMap_nil, List.append_nil, List.mem_map, one_smul]
    exact ⟨fun ⟨s, hs, h⟩ => ⟨s, hs, h.symm⟩, fun ⟨s, hs, h⟩ => ⟨s, hs, h.symm⟩⟩

theorem mem_orbitNew {σ : Sym K d} {k x : Vec K d} (h : x ∈ σ.orbitNew k) :
    ∃ s ∈ σ.ops, x = s.mulVec k := by
  unfold Sym.orbitNew at h
  split_ifs at h with h0
  · simp at h
  · obtain ⟨t, ht⟩ := prefix_foldl_addNew (σ.images k) [k]
    have hnd : ((σ.images k).foldl addNew [k]).Nodup := nodup_foldl_addNew (by simp)
    rw [← ht] at h hnd
    simp only [List.singleton_append, List.drop_succ_cons, List.drop_zero] at h hnd
    have hx : x ∈ (σ.images k).foldl addNew [k] := by rw [← ht]; simp [h]
    rw [mem_foldl_addNew] at hx
    rcases hx with hx | hx
    · simp at hx; subst hx
      exact absurd h (List.nodup_cons.1 hnd).1
    · exact mem_images.1 hx

theorem image_mem_orbit {σ : Sym K d} {k : Vec K d} {s : Mat K d} (hs : s ∈ σ.ops) :
    s.mulVec k = k ∨ s.mulVec k ∈ σ.orbitNew k := by
  unfold Sym.orbitNew
  split_ifs with h0
  · left; simp [h0]
  · obtain ⟨t, ht⟩ := prefix_foldl_addNew (σ.images k) [k]
    have hx : s.mulVec k ∈ (σ.images k).foldl addNew [k] :=
      mem_foldl_addNew.2 (Or.inr (mem_images.2 ⟨s, hs, rfl⟩))
    rw [← ht] at hx ⊢
    simpa using hx

theorem mem_fullK {σ : Sym K d} {ks : List (Vec K d)} {x : Vec K d} {i : ℕ}
    (h : (x, i) ∈ σ.fullK ks) : ∃ k, ks[i]? = some k ∧ (x = k ∨ ∃ s ∈ σ.ops, x = s.mulVec k) := by
  unfold Sym.fullK at h
  rcases List.mem_append.1 h with h | h
  · rw [List.mem_zipIdx_iff_getElem?] at h
    exact ⟨x, h, Or.inl rfl⟩
  · obtain ⟨⟨k, j⟩, hk, hx⟩ := List.mem_flatMap.1 h
    rw [List.mem_zipIdx_iff_getElem?] at hk
    simp only [List.mem_map, Prod.mk.injEq] at hx
    obtain ⟨y, hy, rfl, rfl⟩ := hx
    exact ⟨k, hk, Or.inr (mem_orbitNew hy)⟩

theorem fullK_complete {σ : Sym K d} {ks : List (Vec K d)} {k : Vec K d} {i : ℕ}
    (hk : ks[i]? = some k) {s : Mat K d} (hs : s ∈ σ.ops) : (s.mulVec k, i) ∈ σ.fullK ks := by
  unfold Sym.fullK
  rcases image_mem_orbit (k := k) hs with h | h
  · rw [h]
    exact List.mem_append_left _ (List.mem_zipIdx_iff_getElem?.2 hk)
  · refine List.mem_append_right _ (List.mem_flatMap.2 ⟨(k, i), List.mem_zipIdx_iff_getElem?.2 hk, ?_⟩)
    exact List.mem_map.2 ⟨_, h, rfl⟩


/-- Everything about `realize_symmetric` in one lemma. `w` is the (optional) folding into the unit cell. -/
theorem realize_spec [FloorRing K] {σ : Sym K d} (hid : 1 ∈ σ.ops) {κ : K → K} {unitCell : Bool}
    {ks : List (Vec K d)} {out : List (Vec K d × ℕ)} (h : σ.realize κ unitCell ks = .ok out) :
    let w : Vec K d → Vec K d := fun x => if unitCell then fun i => wrapCell (x i) else x
    (∀ x i, (x, i) ∈ out → ∃ k, ks[i]? = some k ∧ ∃ s ∈ σ.ops, x = w (s.mulVec k)) ∧
    (∀ (i : ℕ) k, ks[i]? = some k → ∀ s ∈ σ.ops, ∃ j, (w (s.mulVec k), j) ∈ out) ∧
    ((∀ x ∈ out.map Prod.fst, ∀ y ∈ out.map Prod.fst, (∀ i, κ (x i) = κ (y i)) → x = y) →
      (out.map Prod.fst).Nodup) := by
  intro w
  unfold Sym.realize at h
  by_cases h0 : ks.isEmpty = true
  · rw [if_pos h0] at h; cases h
  rw [if_neg h0] at h
  dsimp only at h
  generalize hfull : (σ.fullK ks).map (fun p => if unitCell then (fun i => wrapCell (p.1 i), p.2) else p) = full at h
  have hw : full = (σ.fullK ks).map (fun p => (w p.1, p.2)) := by
    rw [← hfull]; apply List.map_congr_left; intro p _; simp only [w]; split_ifs <;> rfl
  obtain ⟨T, hT1, hT2, hT3⟩ := sortCoords_pairwise κ Prod.fst full
  have hperm := sortCoords_perm κ Prod.fst full
  split at h
  · cases h
  · rename_i x l hxl
    rw [hxl] at hT1 hperm
    obtain rfl : x :: dedupAdj Prod.fst x l = out := Except.ok.inj h
    have hsub : ∀ p ∈ x :: dedupAdj Prod.fst x l, p ∈ x :: l := by
      intro p hp
      rcases List.mem_cons.1 hp with rfl | hp
      · simp
      · exact List.mem_cons_of_mem _ ((dedupAdj_sublist _ _ _).subset hp)
    refine ⟨?_, ?_, ?_⟩
    · intro y i hy
      have := hperm.mem_iff.1 (hsub _ hy)
      rw [hw, List.mem_map] at this
      obtain ⟨⟨z, j⟩, hz, he⟩ := this
      simp only [Prod.mk.injEq] at he
      obtain ⟨rfl, rfl⟩ := he
      obtain ⟨k, hk, rfl | ⟨s, hs, rfl⟩⟩ := mem_fullK hz
      · exact ⟨z, hk, 1, hid, by simp⟩
      · exact ⟨k, hk, s, hs, rfl⟩
    · intro i k hk s hs
      have h1 : (w (s.mulVec k), i) ∈ full := by
        rw [hw]; exact List.mem_map.2 ⟨_, fullK_complete hk hs, rfl⟩
      have h2 := hperm.mem_iff.2 h1
      rcases List.mem_cons.1 h2 with h3 | h3
      · exact ⟨i, by rw [h3]; simp⟩
      · obtain ⟨z, hz, he⟩ := mem_dedupAdj Prod.fst x l _ h3
        exact ⟨z.2, by rw [show (w (s.mulVec k), z.2) = z from Prod.ext he.symm rfl]; exact hz⟩
    · intro hκ
      refine dedupAdj_nodup Prod.fst T x l hT1 ?_ (fun a _ b _ c _ => hT3 a b c)
      intro a ha b hb hab hba
      have hin : ∀ p ∈ x :: l, p.1 ∈ (x :: dedupAdj Prod.fst x l).map Prod.fst := by
        intro p hp
        rcases List.mem_cons.1 hp with rfl | hp
        · simp
        · obtain ⟨z, hz, he⟩ := mem_dedupAdj Prod.fst x l _ hp
          exact List.mem_map.2 ⟨z, hz, he⟩
      exact hκ _ (hin a ha) _ (hin b hb) (hT2 a b hab hba)

theorem realize_ok [FloorRing K] {σ : Sym K d} {κ : K → K} {unitCell : Bool} {ks : List (Vec K d)}
    (h : ks ≠ []) : ∃ out, σ.realize κ unitCell ks = .ok out := by
  unfold Sym.realize
  rw [if_neg (by simpa using h)]
  simp only
  split
  · rename_i hnil
    exfalso
    have := (sortCoords_perm κ Prod.fst _).length_eq.symm.trans (congrArg List.length hnil)
    simp [Sym.fullK] at this
    exact h this.1
  · exact ⟨_, rfl⟩


/-! ### orbit–stabiliser -/

/-- In a list with constant multiplicity `m`, counting is `m` times counting distinct entries. -/
theorem countP_of_mult {α : Type} [DecidableEq α] {l : List α} {m : ℕ} (hm : ∀ x ∈ l, l.count x = m)
    (p : α → Bool) : l.countP p = (l.toFinset.filter (fun x => p x = true)).card * m := by
  rw [List.countP_eq_length_filter, ← List.sum_toFinset_count_eq_length, List.toFinset_filter]
  rw [Finset.sum_congr rfl (g := fun _ => m)]
  · simp
  · intro x hx
    simp only [Finset.mem_filter, List.mem_toFinset] at hx
    rw [List.count_filter (by simpa using hx.2)]
    exact hm x hx.1

theorem orbit_stabiliser {l : List (Mat K d)} (hg : IsMatGroup l) (k : Vec K d) :
    l.toFinset.card = (l.map fun s => s.mulVec k).toFinset.card *
      (l.toFinset.filter (fun s => s.mulVec k = k)).card := by
  have h1 := Finset.card_eq_sum_card_fiberwise (s := l.toFinset) (f := fun s => s.mulVec k)
    (t := (l.map fun s => s.mulVec k).toFinset) (by
      intro s hs
      simp only [Finset.mem_coe, List.mem_toFinset, List.mem_map] at hs ⊢
      exact ⟨s, hs, rfl⟩)
  rw [h1, Finset.sum_const_nat]
  intro y hy
  simp only [List.mem_toFinset, List.mem_map] at hy
  obtain ⟨t, ht, rfl⟩ := hy
  obtain ⟨u, hu, h1, h2⟩ := hg.inv_mem t ht
  refine Finset.card_nbij' (fun s => u * s) (fun s => t * s) ?_ ?_ ?_ ?_
  · intro s hs
    simp only [Finset.coe_filter, Set.mem_ofPred_eq, List.mem_toFinset] at hs ⊢
    refine ⟨hg.mul_mem _ hu _ hs.1, ?_⟩
    rw [← Matrix.mulVec_mulVec, hs.2, Matrix.mulVec_mulVec, h2, Matrix.one_mulVec]
  · intro s hs
    simp only [Finset.coe_filter, Set.mem_ofPred_eq, List.mem_toFinset] at hs ⊢
    refine ⟨hg.mul_mem _ ht _ hs.1, ?_⟩
    rw [← Matrix.mulVec_mulVec, hs.2]
  · intro s _; simp only [← Matrix.mul_assoc, h1, Matrix.one_mul]
  · intro s _; simp only [← Matrix.mul_assoc, h2, Matrix.one_mul]

theorem countP_signs (σ : Sym K d) (p : Mat K d → Bool) :
    (σ.signs.map fun sg => σ.S.countP fun s => p (sg • s)).sum = σ.ops.countP p := by
  unfold Sym.signs Sym.ops
  split_ifs
  · simp only [List.map_cons, List.map_nil, List.sum_cons, List.sum_nil, add_zero, one_smul, neg_smul,
      List.countP_append, List.countP_map, Function.comp_def]
    exact add_comm _ _
  · simp

theorem sub_one_mulVec_eq_zero {s : Mat K d} {k : Vec K d} : (s - 1).mulVec k = 0 ↔ s.mulVec k = k := by
  rw [Matrix.sub_mulVec, Matrix.one_mulVec, sub_eq_zero]

theorem pingpong_nonneg [FloorRing K] (x : K) : 0 ≤ pingpong x := by
  unfold pingpong
  have h0 := Int.fract_nonneg x
  have h1 := Int.fract_lt_one x
  rw [sub_nonneg, abs_le]
  constructor <;> linarith

theorem pingpong_eq_zero [FloorRing K] {x : K} : pingpong x = 0 ↔ ∃ n : ℤ, x = n := by
  unfold pingpong
  have h0 := Int.fract_nonneg x
  have h1 := Int.fract_lt_one x
  constructor
  · intro h
    rw [sub_eq_zero] at h
    have : Int.fract x = 0 := by
      rcases abs_choice (Int.fract x - 1 / 2) with h' | h' <;> rw [h'] at h
      · exfalso; linarith
      · linarith
    exact ⟨⌊x⌋, by have := Int.floor_add_fract x; rw [‹Int.fract x = 0›, add_zero] at this; exact this.symm⟩
  · rintro ⟨n, rfl⟩
    rw [Int.fract_intCast]
    norm_num

theorem sum_pingpong_eq_zero [FloorRing K] {v : Vec K d} :
    ∑ i, pingpong (v i) = 0 ↔ ∀ i, ∃ n : ℤ, v i = n := by
  rw [Finset.sum_eq_zero_iff_of_nonneg (fun i _ => pingpong_nonneg _)]
  simp [pingpong_eq_zero]

end TB
