import Mathlib.Data.List.FinRange
import Mathlib.Data.List.GetD
import Mathlib.Tactic.Ring
import Mathlib.Tactic.Linarith
import Mathlib.Tactic.Positivity
import Verif.Model.Interpolate
import Verif.Lemmas.SymmetryPoints

/-! Helper lemmas for the interpolation of band data. -/

set_option linter.unusedSectionVars false

namespace TB

variable {K : Type} [Field K] [LinearOrder K] [IsStrictOrderedRing K] {d B : ℕ}

/-! ### groups of equal neighbours -/

theorem groupAdj_ne {α : Type} (pt : α → Vec K d) (p : α) (l : List α) : groupAdj pt p l ≠ [] := by
  cases l with
  | nil => simp [groupAdj]
  | cons x l =>
    rw [groupAdj]
    split_ifs
    · split <;> simp
    · simp

theorem groupAdj_flatten {α : Type} (pt : α → Vec K d) (p : α) (l : List α) :
    (groupAdj pt p l).flatMap (fun g => g.1 :: g.2) = p :: l := by
  induction l generalizing p with
  | nil => simp [groupAdj]
  | cons x l ih =>
    have h := ih x
    rw [groupAdj]
    split_ifs with he
    · cases hg : groupAdj pt x l with
      | nil => exact absurd hg (groupAdj_ne pt x l)
      | cons g gs => rw [hg] at h; simp only [List.flatMap_cons, List.cons_append] at h ⊢; rw [h]
    · simp [h]

theorem groupAdj_same {α : Type} (pt : α → Vec K d) (p : α) (l : List α) :
    ∀ g ∈ groupAdj pt p l, ∀ y ∈ g.2, pt y = pt g.1 := by
  induction l generalizing p with
  | nil => simp [groupAdj]
  | cons x l ih =>
    have h := ih x
    have hf := groupAdj_flatten pt x l
    rw [groupAdj]
    split_ifs with he
    · cases hg : groupAdj pt x l with
      | nil => exact absurd hg (groupAdj_ne pt x l)
      | cons g gs =>
        rw [hg] at h hf
        simp only [List.flatMap_cons, List.cons_append, List.cons.injEq] at hf
        simp only [List.mem_cons, forall_eq_or_imp] at h ⊢
        refine ⟨⟨?_, ?_⟩, h.2⟩
        · rw [hf.1, he]
        · intro y hy; rw [h.1 y hy, hf.1, he]
    · simp only [List.mem_cons, forall_eq_or_imp]
      exact ⟨by simp, h⟩

theorem groupAdj_heads {α : Type} (pt : α → Vec K d) (p : α) (l : List α) :
    (groupAdj pt p l).map (fun g => pt g.1) = (p :: dedupAdj pt p l).map pt := by
  induction l generalizing p with
  | nil => simp [groupAdj, dedupAdj]
  | cons x l ih =>
    have h := ih x
    rw [groupAdj, dedupAdj]
    split_ifs with he
    · cases hg : groupAdj pt x l with
      | nil => exact absurd hg (groupAdj_ne pt x l)
      | cons g gs =>
        rw [hg] at h
        simp only [List.map_cons, List.cons.injEq] at h ⊢
        exact ⟨trivial, h.2⟩
    · simp [h]

/-- Everything about `realize_symmetric(collect_bad_duplicates=True)`. -/
theorem realizeCollect_spec [FloorRing K] {σ : Sym K d} (hid : 1 ∈ σ.ops) {κ : K → K} {unitCell : Bool} {ks : List (Vec K d)} (hks : ks ≠ []) :
    let w : Vec K d → Vec K d := fun x => if unitCell then fun i => wrapCell (x i) else x
    ∃ out, σ.realizeCollect κ unitCell ks = .ok out ∧
      (∃ plain, σ.realize κ unitCell ks = .ok plain ∧ plain.map Prod.fst = out.map Prod.fst) ∧
      (∀ x, x ∈ out.map Prod.fst ↔ ∃ (i : ℕ) (k : Vec K d), ks[i]? = some k ∧ ∃ s ∈ σ.ops, x = w (s.mulVec k)) ∧
      (∀ x is, (x, is) ∈ out → is.Nodup ∧ is ≠ []) ∧
      (∀ i < ks.length, ∃ x is, (x, is) ∈ out ∧ i ∈ is) ∧
      (∀ x is, (x, is) ∈ out → ∀ i ∈ is, ∃ k, ks[i]? = some k ∧ ∃ s ∈ σ.ops, x = w (s.mulVec k)) ∧
      ((∀ x ∈ out.map Prod.fst, ∀ y ∈ out.map Prod.fst, (∀ i, κ (x i) = κ (y i)) → x = y) →
        (out.map Prod.fst).Nodup ∧
        ∀ x is, (x, is) ∈ out → ∀ (i : ℕ) k, ks[i]? = some k → (∃ s ∈ σ.ops, x = w (s.mulVec k)) → i ∈ is) := by
  intro w
  obtain ⟨plain, hplain⟩ := realize_ok (σ := σ) (κ := κ) (unitCell := unitCell) hks
  obtain ⟨p1, p2, p3⟩ := realize_spec hid hplain
  have hplain0 := hplain
  unfold Sym.realize at hplain
  unfold Sym.realizeCollect
  have h0 : ¬ ks.isEmpty = true := by simpa using hks
  rw [if_neg h0] at hplain ⊢
  dsimp only at hplain ⊢
  generalize hfull : (σ.fullK ks).map (fun p => if unitCell then (fun i => wrapCell (p.1 i), p.2) else p) = full at hplain ⊢
  have hw : full = (σ.fullK ks).map (fun p => (w p.1, p.2)) := by
    rw [← hfull]; apply List.map_congr_left; intro p _; simp only [w]; split_ifs <;> rfl
  have hperm := sortCoords_perm κ Prod.fst full
  have hfullmem : ∀ x i, (x, i) ∈ full ↔ ∃ k, ks[i]? = some k ∧ ∃ s ∈ σ.ops, x = w (s.mulVec k) := by
    intro x i
    rw [hw, List.mem_map]
    constructor
    · rintro ⟨⟨z, j⟩, hz, he⟩
      simp only [Prod.mk.injEq] at he
      obtain ⟨rfl, rfl⟩ := he
      obtain ⟨k, hk, rfl | ⟨s, hs, rfl⟩⟩ := mem_fullK hz
      · exact ⟨z, hk, 1, hid, by simp⟩
      · exact ⟨k, hk, s, hs, rfl⟩
    · rintro ⟨k, hk, s, hs, rfl⟩
      exact ⟨_, fullK_complete hk hs, rfl⟩
  cases hs : sortCoords κ Prod.fst full with
  | nil => rw [hs] at hplain; cases hplain
  | cons x l =>
    rw [hs] at hplain hperm
    obtain rfl : x :: dedupAdj Prod.fst x l = plain := Except.ok.inj hplain
    have hheads := groupAdj_heads Prod.fst x l
    have hflat := groupAdj_flatten Prod.fst x l
    have hsame := groupAdj_same Prod.fst x l
    have hmem : ∀ g ∈ groupAdj Prod.fst x l, ∀ y ∈ g.1 :: g.2, y ∈ full ∧ y.1 = g.1.1 := by
      intro g hg y hy
      refine ⟨hperm.mem_iff.1 ?_, ?_⟩
      · rw [← hflat]; exact List.mem_flatMap.2 ⟨g, hg, hy⟩
      · rcases List.mem_cons.1 hy with rfl | hy
        · rfl
        · exact hsame g hg y hy
    have hfst : ((groupAdj Prod.fst x l).map fun g => (g.1.1, (g.1.2 :: g.2.map Prod.snd).toFinset.sort (· ≤ ·))).map Prod.fst =
        (x :: dedupAdj Prod.fst x l).map Prod.fst := by
      rw [← hheads, List.map_map]; rfl
    refine ⟨_, rfl, ⟨_, hplain0, hfst.symm⟩, ?_, ?_, ?_, ?_, ?_⟩
    · intro z
      rw [hfst]
      constructor
      · intro hz
        obtain ⟨⟨z', i⟩, hzi, rfl⟩ := List.mem_map.1 hz
        obtain ⟨k, hk, s, hs, he⟩ := p1 z' i hzi
        exact ⟨i, k, hk, s, hs, he⟩
      · rintro ⟨i, k, hk, s, hs, rfl⟩
        obtain ⟨j, hj⟩ := p2 i k hk s hs
        exact List.mem_map.2 ⟨_, hj, rfl⟩
    · intro z is hz
      obtain ⟨g, hg, he⟩ := List.mem_map.1 hz
      obtain ⟨rfl, rfl⟩ := Prod.mk.inj he
      refine ⟨Finset.sort_nodup _ _, ?_⟩
      intro hnil
      have : g.1.2 ∈ (g.1.2 :: g.2.map Prod.snd).toFinset.sort (· ≤ ·) := by rw [Finset.mem_sort]; simp
      rw [hnil] at this; simp at this
    · intro i hi
      have h1 : (w ((1 : Mat K d).mulVec ks[i]), i) ∈ full := (hfullmem _ _).2 ⟨ks[i], List.getElem?_eq_getElem hi, 1, hid, rfl⟩
      have h2 := hperm.mem_iff.2 h1
      rw [← hflat] at h2
      obtain ⟨g, hg, hy⟩ := List.mem_flatMap.1 h2
      refine ⟨_, _, List.mem_map.2 ⟨g, hg, rfl⟩, ?_⟩
      rw [Finset.mem_sort, List.mem_toFinset]
      rcases List.mem_cons.1 hy with h5 | h5
      · rw [← h5]; simp
      · exact List.mem_cons_of_mem _ (List.mem_map.2 ⟨_, h5, rfl⟩)
    · intro z is hz i hi
      obtain ⟨g, hg, he⟩ := List.mem_map.1 hz
      obtain ⟨rfl, rfl⟩ := Prod.mk.inj he
      rw [Finset.mem_sort, List.mem_toFinset] at hi
      have : ∃ y ∈ g.1 :: g.2, y.2 = i := by
        rcases List.mem_cons.1 hi with rfl | hi
        · exact ⟨g.1, by simp, rfl⟩
        · obtain ⟨y, hy, rfl⟩ := List.mem_map.1 hi
          exact ⟨y, by simp [hy], rfl⟩
      obtain ⟨y, hy, rfl⟩ := this
      obtain ⟨h1, h2⟩ := hmem g hg y hy
      have h3 := (hfullmem y.1 y.2).1 h1
      rw [h2] at h3; exact h3
    · intro hκ
      have hκ' : ∀ a ∈ (x :: dedupAdj Prod.fst x l).map Prod.fst, ∀ b ∈ (x :: dedupAdj Prod.fst x l).map Prod.fst,
          (∀ i, κ (a i) = κ (b i)) → a = b := by rw [← hfst]; exact hκ
      have hnd := p3 hκ'
      refine ⟨by rw [hfst]; exact hnd, ?_⟩
      intro z is hz i k hk hs
      obtain ⟨g, hg, he⟩ := List.mem_map.1 hz
      obtain ⟨rfl, rfl⟩ := Prod.mk.inj he
      have h1 : (g.1.1, i) ∈ full := (hfullmem _ _).2 ⟨k, hk, hs⟩
      have h2 := hperm.mem_iff.2 h1
      rw [← hflat] at h2
      obtain ⟨g', hg', hy⟩ := List.mem_flatMap.1 h2
      have h3 := (hmem g' hg' _ hy).2
      have h4 : g = g' := by
        rw [← hheads] at hnd
        exact List.inj_on_of_nodup_map hnd hg hg' h3
      subst h4
      rw [Finset.mem_sort, List.mem_toFinset]
      rcases List.mem_cons.1 hy with h5 | h5
      · rw [← h5]; simp
      · exact List.mem_cons_of_mem _ (List.mem_map.2 ⟨_, h5, rfl⟩)

theorem mapM_option_some {α β : Type} {f : α → Option β} {l : List α} {r : List β} (h : l.mapM f = some r) : r.map some = l.map f := by
  induction l generalizing r with
  | nil => simp at h; simp [h]
  | cons x l ih =>
    rw [List.mapM_cons] at h
    cases hx : f x with
    | none => rw [hx] at h; simp at h
    | some y =>
      rw [hx] at h
      cases hl : l.mapM f with
      | none => rw [hl] at h; simp at h
      | some t => rw [hl] at h; simp at h; subst h; simp [hx, ih hl]

theorem mapM_option_none {α β : Type} {f : α → Option β} {l : List α} : l.mapM f = none ↔ ∃ x ∈ l, f x = none := by
  induction l with
  | nil => simp
  | cons x l ih =>
    rw [List.mapM_cons]
    cases hx : f x with
    | none => simp [hx]
    | some y =>
      cases hl : l.mapM f with
      | none => have := ih.1 hl; simp [hx]; exact this
      | some t =>
        have h : ¬ ∃ x ∈ l, f x = none := fun h => by rw [ih.2 h] at hl; cases hl
        simp [hx]
        intro z hz he
        exact h ⟨z, hz, he⟩

/-- `mapM` of a function that returns or raises one fixed exception. -/
theorem mapM_except {α β γ : Type} (g : α → Option β) (h : α → β → γ) (e : Err) (l : List α) :
    (∀ x ∈ l, g x ≠ none) ∧ (∃ out, (l.mapM fun x => match g x with | some y => (Except.ok (h x y) : Except Err γ) | none => .error e) = .ok out ∧
      out.map some = l.map fun x => (g x).map (h x)) ∨
    (∃ x ∈ l, g x = none) ∧ (l.mapM fun x => match g x with | some y => (Except.ok (h x y) : Except Err γ) | none => .error e) = .error e := by
  induction l with
  | nil => exact Or.inl ⟨by simp, [], rfl, by simp⟩
  | cons x l ih =>
    rw [List.mapM_cons]
    cases hx : g x with
    | none => exact Or.inr ⟨⟨x, by simp, hx⟩, rfl⟩
    | some y =>
      rcases ih with ⟨h1, out, h2, h3⟩ | ⟨⟨z, hz, h1⟩, h2⟩
      · refine Or.inl ⟨by simp [hx]; exact h1, h x y :: out, ?_, by simp [hx, h3]⟩
        rw [h2]; rfl
      · refine Or.inr ⟨⟨z, by simp [hz], h1⟩, ?_⟩
        rw [h2]; rfl

/-! ### sorting into the order of the grid -/

/-- Lexicographic order of the keys along a list of coordinates. -/
def LexLE (κ : K → K) : List (Fin d) → Vec K d → Vec K d → Prop
  | [], _, _ => True
  | i :: is, a, b => κ (a i) < κ (b i) ∨ κ (a i) = κ (b i) ∧ LexLE κ is a b

theorem sortGrid_eq {α : Type} (κ : K → K) (pt : α → Vec K d) (l : List α) :
    sortGrid κ pt l = (List.finRange d).foldr (fun i l => stableSort (fun a => κ (pt a i)) l) l := by
  rw [sortGrid, List.foldl_reverse]

theorem sortGrid_perm {α : Type} (κ : K → K) (pt : α → Vec K d) (l : List α) : (sortGrid κ pt l).Perm l := by
  rw [sortGrid_eq]
  generalize List.finRange d = is
  induction is with
  | nil => exact List.Perm.refl _
  | cons i is ih => exact (stableSort_perm _ _).trans ih

theorem sortGrid_pairwise {α : Type} (κ : K → K) (pt : α → Vec K d) (l : List α) :
    (sortGrid κ pt l).Pairwise fun a b => LexLE κ (List.finRange d) (pt a) (pt b) := by
  rw [sortGrid_eq]
  generalize List.finRange d = is
  induction is with
  | nil => exact List.pairwise_of_forall fun _ _ => trivial
  | cons i is ih => exact stableSort_pairwise ih

theorem LexLE.antisymm {κ : K → K} {is : List (Fin d)} {a b : Vec K d} (h1 : LexLE κ is a b) (h2 : LexLE κ is b a) :
    ∀ i ∈ is, κ (a i) = κ (b i) := by
  induction is with
  | nil => simp
  | cons i is ih =>
    rcases h1 with h1 | ⟨e1, h1⟩
    · rcases h2 with h2 | ⟨e2, -⟩
      · exact absurd h1 h2.not_gt
      · rw [e2] at h1; exact absurd h1 (lt_irrefl _)
    · rcases h2 with h2 | ⟨-, h2⟩
      · rw [e1] at h2; exact absurd h2 (lt_irrefl _)
      · intro j hj
        rcases List.mem_cons.1 hj with rfl | hj
        · exact e1
        · exact ih h1 h2 j hj

theorem LexLE_map_succ (κ : K → K) (is : List (Fin d)) (a b : K) (x y : Vec K d) :
    LexLE κ (is.map Fin.succ) (Fin.cons a x) (Fin.cons b y) ↔ LexLE κ is x y := by
  induction is with
  | nil => exact Iff.rfl
  | cons i is ih => simp only [List.map_cons, LexLE, Fin.cons_succ, ih]

/-- The points of a grid in row-major order. -/
def gridPts : {d : ℕ} → (Fin d → List K) → List (Vec K d)
  | 0, _ => [Fin.elim0]
  | _ + 1, A => (A 0).flatMap fun a => (gridPts fun i => A i.succ).map fun x => (Fin.cons a x : Vec K _)

theorem mem_gridPts : {d : ℕ} → (A : Fin d → List K) → (x : Vec K d) → (x ∈ gridPts A ↔ ∀ i, x i ∈ A i)
  | 0, A, x => by
    simp only [gridPts, List.mem_singleton]
    exact ⟨fun _ i => i.elim0, fun _ => funext fun i => i.elim0⟩
  | d + 1, A, x => by
    simp only [gridPts, List.mem_flatMap, List.mem_map]
    constructor
    · rintro ⟨a, ha, y, hy, rfl⟩ i
      have hy := (mem_gridPts _ y).1 hy
      refine Fin.cases ?_ (fun j => ?_) i
      · simpa using ha
      · simpa using hy j
    · intro h
      exact ⟨x 0, h 0, fun i => x i.succ, (mem_gridPts _ _).2 fun i => h i.succ, Fin.cons_self_tail x⟩

theorem gridPts_pairwise (κ : K → K) : {d : ℕ} → (A : Fin d → List K) → (∀ i, (A i).Pairwise fun a b => κ a < κ b) →
    (gridPts A).Pairwise fun a b => LexLE κ (List.finRange d) a b ∧ a ≠ b
  | 0, A, _ => by simp [gridPts]
  | d + 1, A, h => by
    have ih := gridPts_pairwise κ (fun i => A i.succ) fun i => h i.succ
    rw [gridPts, List.pairwise_flatMap]
    refine ⟨fun a _ => ?_, (h 0).imp ?_⟩
    · rw [List.pairwise_map]
      refine ih.imp ?_
      rintro x y ⟨h1, h2⟩
      refine ⟨?_, ?_⟩
      · rw [List.finRange_succ]
        exact Or.inr ⟨rfl, (LexLE_map_succ κ _ _ _ _ _).2 h1⟩
      · intro he
        exact h2 (Fin.cons_injective2 he).2
    · intro a b hab x hx y hy
      obtain ⟨x', -, rfl⟩ := List.mem_map.1 hx
      obtain ⟨y', -, rfl⟩ := List.mem_map.1 hy
      refine ⟨?_, ?_⟩
      · rw [List.finRange_succ]; exact Or.inl hab
      · intro he
        have := (Fin.cons_injective2 he).1
        rw [this] at hab; exact lt_irrefl _ hab

theorem gridPts_nodup (κ : K → K) (A : Fin d → List K) (h : ∀ i, (A i).Pairwise fun a b => κ a < κ b) : (gridPts A).Nodup :=
  (gridPts_pairwise κ A h).imp fun h => h.2

theorem gridPts_length : {d : ℕ} → (A : Fin d → List K) → (gridPts A).length = ∏ i, (A i).length
  | 0, A => by simp [gridPts]
  | d + 1, A => by
    rw [gridPts, List.length_flatMap, Fin.prod_univ_succ, ← gridPts_length fun i => A i.succ]
    simp

theorem getElem?_flatMap_block {α β : Type} (f : α → List β) (m : ℕ) (l : List α) (hm : ∀ a ∈ l, (f a).length = m) (i j : ℕ) (hj : j < m) (a : α)
    (ha : l[i]? = some a) : (l.flatMap f)[i * m + j]? = (f a)[j]? := by
  induction l generalizing i with
  | nil => simp at ha
  | cons b l ih =>
    have hb := hm b (by simp)
    rw [List.flatMap_cons]
    cases i with
    | zero =>
      simp only [List.getElem?_cons_zero, Option.some.injEq] at ha
      subst ha
      rw [List.getElem?_append_left (by omega)]; congr 1; omega
    | succ i =>
      rw [List.getElem?_append_right (by rw [hb, Nat.succ_mul]; omega), hb]
      rw [show (i + 1) * m + j - m = i * m + j by rw [Nat.succ_mul]; omega]
      exact ih (fun a ha => hm a (by simp [ha])) i (by simpa using ha)

theorem gridPts_get : {d : ℕ} → (A : Fin d → List K) → (n : Fin d → ℕ) → (∀ i, (A i).length = n i) → (idx : Fin d → ℕ) → (x : Vec K d) →
    (∀ i, (A i)[idx i]? = some (x i)) → (gridPts A)[flatIdx n idx]? = some x
  | 0, A, n, _, idx, x, _ => by
    simp only [gridPts, flatIdx, List.getElem?_cons_zero, Option.some.injEq]
    exact funext fun i => i.elim0
  | d + 1, A, n, hn, idx, x, hx => by
    have ih := gridPts_get (fun i => A i.succ) (fun i => n i.succ) (fun i => hn i.succ) (fun i => idx i.succ) (fun i => x i.succ) fun i => hx i.succ
    have hlen : (gridPts fun i => A i.succ).length = ∏ i : Fin d, n i.succ := by
      rw [gridPts_length]; exact Finset.prod_congr rfl fun i _ => hn i.succ
    have hlt : flatIdx (fun i => n i.succ) (fun i => idx i.succ) < ∏ i : Fin d, n i.succ := by
      rw [← hlen]; exact (List.getElem?_eq_some_iff.1 ih).1
    rw [gridPts, flatIdx, getElem?_flatMap_block _ (∏ i : Fin d, n i.succ) _ (fun a _ => by simpa using hlen) _ _ hlt (x 0) (hx 0)]
    rw [List.getElem?_map, ih]
    simp only [Option.map_some, Option.some.injEq]
    exact Fin.cons_self_tail x

theorem inj_of_pairwise (κ : K → K) {l : List K} (h : l.Pairwise fun a b => κ a < κ b) : ∀ a ∈ l, ∀ b ∈ l, κ a = κ b → a = b := by
  induction l with
  | nil => simp
  | cons x l ih =>
    rw [List.pairwise_cons] at h
    intro a ha b hb he
    rcases List.mem_cons.1 ha with ha | ha <;> rcases List.mem_cons.1 hb with hb | hb
    · rw [ha, hb]
    · rw [ha] at he; exact absurd he (h.1 b hb).ne
    · rw [hb] at he; exact absurd he.symm (h.1 a ha).ne
    · exact ih h.2 a ha b hb he

/-- The sorted points of a grid are in row-major order. -/
theorem sortGrid_grid {α : Type} (κ : K → K) (pt : α → Vec K d) (l : List α) (A : Fin d → List K) (hA : ∀ i, (A i).Pairwise fun a b => κ a < κ b)
    (hnd : (l.map pt).Nodup) (hmem : ∀ x, x ∈ l.map pt ↔ ∀ i, x i ∈ A i) : (sortGrid κ pt l).map pt = gridPts A := by
  have hinj : ∀ i, ∀ a ∈ A i, ∀ b ∈ A i, κ a = κ b → a = b := fun i => inj_of_pairwise κ (hA i)
  refine List.Perm.eq_of_pairwise (le := LexLE κ (List.finRange d)) ?_ ?_ ?_ ?_
  · intro a b ha hb h1 h2
    have ha' : ∀ i, a i ∈ A i := by
      rw [← hmem]; exact ((sortGrid_perm κ pt l).map pt).mem_iff.1 ha
    have hb' := (mem_gridPts A b).1 hb
    funext i
    exact hinj i _ (ha' i) _ (hb' i) (h1.antisymm h2 i (List.mem_finRange i))
  · rw [List.pairwise_map]; exact sortGrid_pairwise κ pt l
  · exact (gridPts_pairwise κ A hA).imp fun h => h.1
  · refine ((sortGrid_perm κ pt l).map pt).trans ?_
    refine (List.perm_ext_iff_of_nodup hnd (gridPts_nodup κ A hA)).2 ?_
    intro x; rw [hmem, mem_gridPts]

/-! ### the periodic extension -/

theorem extend_foldl (n : Fin d → ℕ) (g : GridData K d B) (hg : g.shape = n) (is : List (Fin d)) (his : is.Nodup) :
    (is.foldl GridData.extend g).shape = (fun i => if i ∈ is then n i + 3 else n i) ∧
    (∀ idx, (is.foldl GridData.extend g).v idx = g.v fun i => if i ∈ is then takeWrap (n i) (idx i) else idx i) ∧
    ∀ idx, (is.foldl GridData.extend g).k idx = g.k (fun i => if i ∈ is then takeWrap (n i) (idx i) else idx i) +
      fun i => if i ∈ is then takeShift (n i) (idx i) else 0 := by
  induction is using List.reverseRecOn with
  | nil =>
    refine ⟨by simp [hg], by simp, fun idx => ?_⟩
    simp only [List.foldl_nil, List.not_mem_nil, if_false]
    rw [show (fun _ : Fin d => (0 : K)) = 0 from rfl, add_zero]
  | append_singleton is j ih =>
    have hj : j ∉ is := fun h => (List.nodup_append.1 his).2.2 j h j (by simp) rfl
    obtain ⟨h1, h2, h3⟩ := ih (List.nodup_append.1 his).1
    rw [List.foldl_append, List.foldl_cons, List.foldl_nil]
    set e := is.foldl GridData.extend g with he
    have hs : e.shape j = n j := by rw [h1]; simp [hj]
    have hidx : ∀ idx : Fin d → ℕ, (fun i => if i ∈ is then takeWrap (n i) (Function.update idx j (takeWrap (n j) (idx j)) i) else
        Function.update idx j (takeWrap (n j) (idx j)) i) = fun i => if i ∈ is ++ [j] then takeWrap (n i) (idx i) else idx i := by
      intro idx; funext i
      by_cases hij : i = j
      · subst hij; simp [hj]
      · simp [hij, Function.update_of_ne hij]
    refine ⟨?_, fun idx => ?_, fun idx => ?_⟩
    · funext i
      simp only [GridData.extend, hs]
      by_cases hij : i = j
      · subst hij; simp
      · rw [Function.update_of_ne hij, h1]; simp [hij]
    · simp only [GridData.extend, hs]
      rw [h2, hidx]
    · simp only [GridData.extend, hs]
      rw [h3, hidx, add_assoc]
      congr 1
      funext i
      by_cases hij : i = j
      · subst hij; simp [hj]
      · simp [hij, Function.update_of_ne hij]

theorem takeWrap_lt (n j : ℕ) (hn : 0 < n) : takeWrap n j < n := by
  unfold takeWrap
  split_ifs
  · omega
  · omega
  · exact Nat.mod_lt _ hn

theorem takeWrap_hi (n i : ℕ) : takeWrap n (n + 1 + i) = i % n := by
  rw [takeWrap, if_neg (by omega), if_neg (by omega)]; congr 1; omega

theorem takeShift_hi (n i : ℕ) : (takeShift n (n + 1 + i) : K) = 1 := by
  rw [takeShift, if_neg (by omega), if_neg (by omega)]

/-- The extended coordinates of an axis. -/
def extAxis (a : List K) : List K := (List.range (a.length + 3)).map fun j => a.getD (takeWrap a.length j) 0 + takeShift a.length j

theorem extAxis_length (a : List K) : (extAxis a).length = a.length + 3 := by simp [extAxis]

/-- Explicit form of the extended coordinates. -/
theorem extAxis_eq (l : List K) (hne : l ≠ []) :
    extAxis l = (l.getLast hne - 1) :: l ++ [l.head hne + 1, l.getD (1 % l.length) 0 + 1] := by
  have hpos : 0 < l.length := List.length_pos_of_ne_nil hne
  apply List.ext_getElem?
  intro j
  rw [extAxis, List.getElem?_map]
  by_cases h0 : j = 0
  · subst h0
    rw [List.getElem?_range (by omega), Option.map_some, show takeWrap l.length 0 = l.length - 1 from rfl, show (takeShift l.length 0 : K) = -1 from rfl,
      List.getD_eq_getElem _ _ (by omega), List.cons_append, List.getElem?_cons_zero, List.getLast_eq_getElem, sub_eq_add_neg]
  by_cases h1 : j ≤ l.length
  · have hw : takeWrap l.length j = j - 1 := by rw [takeWrap, if_neg h0, if_pos h1]
    have hs : (takeShift l.length j : K) = 0 := by rw [takeShift, if_neg h0, if_pos h1]
    rw [List.getElem?_range (by omega), Option.map_some, hw, hs, add_zero]
    obtain ⟨i, rfl⟩ : ∃ i, j = i + 1 := ⟨j - 1, by omega⟩
    rw [List.cons_append, List.getElem?_cons_succ, List.getElem?_append_left (by omega), List.getD_eq_getElem _ _ (by omega), List.getElem?_eq_getElem]
    rfl
  · obtain ⟨i, rfl⟩ : ∃ i, j = l.length + 1 + i := ⟨j - (l.length + 1), by omega⟩
    rw [show ((l.getLast hne - 1) :: l ++ [l.head hne + 1, l.getD (1 % l.length) 0 + 1])[l.length + 1 + i]? =
        [l.head hne + 1, l.getD (1 % l.length) 0 + 1][i]? by
      rw [show l.length + 1 + i = (l.length + i) + 1 by omega, List.cons_append, List.getElem?_cons_succ, List.getElem?_append_right (by omega),
        show l.length + i - l.length = i by omega]]
    by_cases hi : i = 0
    · subst hi
      rw [List.getElem?_range (by omega), Option.map_some, takeWrap_hi, takeShift_hi, Nat.zero_mod, List.getElem?_cons_zero, List.getD_eq_getElem _ _ hpos,
        List.head_eq_getElem]
    by_cases hi1 : i = 1
    · subst hi1
      rw [List.getElem?_range (by omega), Option.map_some, takeWrap_hi, takeShift_hi]
      rfl
    · rw [List.getElem?_eq_none (by simp; omega), List.getElem?_eq_none (by simp; omega)]
      rfl

/-! ### data on a grid -/

/-- The points are exactly the grid with the ascending coordinates `A i` along axis `i`. -/
def Spec.IsGrid (A : Fin d → List K) (ks : List (Vec K d)) : Prop :=
  (∀ i, (A i).Pairwise (· < ·)) ∧ ks.Nodup ∧ ∀ k, k ∈ ks ↔ ∀ i, k i ∈ A i

/-- The key of the sorts separates the coordinates of the grid. -/
def Spec.KeyOk (κ : K → K) (A : Fin d → List K) : Prop := ∀ i, ∀ a ∈ A i, ∀ b ∈ A i, a < b → κ a < κ b

theorem grid_sorted {κ : K → K} {A : Fin d → List K} {data : List (Vec K d × (Fin B → K))} (hA : Spec.IsGrid A (data.map Prod.fst))
    (hκ : Spec.KeyOk κ A) : (sortGrid κ Prod.fst data).map Prod.fst = gridPts A := by
  refine sortGrid_grid κ Prod.fst data A (fun i => ?_) hA.2.1 hA.2.2
  have h := hA.1 i
  have h' := hκ i
  generalize A i = l at h h'
  induction l with
  | nil => simp
  | cons x l ih =>
    rw [List.pairwise_cons] at h ⊢
    exact ⟨fun b hb => h' x (by simp) b (by simp [hb]) (h.1 b hb),
      ih h.2 fun a ha b hb => h' a (by simp [ha]) b (by simp [hb])⟩

theorem grid_length {κ : K → K} {A : Fin d → List K} {data : List (Vec K d × (Fin B → K))} (hA : Spec.IsGrid A (data.map Prod.fst))
    (hκ : Spec.KeyOk κ A) : ∏ i, (A i).length = data.length := by
  rw [← gridPts_length, ← grid_sorted hA hκ, List.length_map, (sortGrid_perm κ Prod.fst data).length_eq]

theorem grid_at {κ : K → K} {A : Fin d → List K} {data : List (Vec K d × (Fin B → K))} (hA : Spec.IsGrid A (data.map Prod.fst))
    (hκ : Spec.KeyOk κ A) (idx : Fin d → ℕ) (x : Vec K d) (hx : ∀ i, (A i)[idx i]? = some (x i)) :
    (reshapeGrid (fun i => (A i).length) (sortGrid κ Prod.fst data)).k idx = x ∧
    (x, (reshapeGrid (fun i => (A i).length) (sortGrid κ Prod.fst data)).v idx) ∈ data := by
  have h := gridPts_get A (fun i => (A i).length) (fun _ => rfl) idx x hx
  rw [← grid_sorted hA hκ, List.getElem?_map] at h
  cases hp : (sortGrid κ Prod.fst data)[flatIdx (fun i => (A i).length) idx]? with
  | none => rw [hp] at h; simp at h
  | some p =>
    rw [hp] at h
    simp only [Option.map_some, Option.some.injEq] at h
    have hg : (sortGrid κ Prod.fst data).getD (flatIdx (fun i => (A i).length) idx) 0 = p := by rw [List.getD_eq_getElem?_getD, hp]; rfl
    have hmem : p ∈ data := (sortGrid_perm κ Prod.fst data).mem_iff.1 (List.mem_of_getElem? hp)
    refine ⟨?_, ?_⟩
    · show ((sortGrid κ Prod.fst data).getD _ 0).1 = x
      rw [hg]; exact h
    · show (x, ((sortGrid κ Prod.fst data).getD _ 0).2) ∈ data
      rw [hg, ← h]; exact hmem

theorem grid_pos {A : Fin d → List K} {data : List (Vec K d × (Fin B → K))} (hA : Spec.IsGrid A (data.map Prod.fst)) (hne : data ≠ []) (i : Fin d) :
    A i ≠ [] := by
  obtain ⟨p, hp⟩ := List.exists_mem_of_ne_nil data hne
  exact List.ne_nil_of_mem ((hA.2.2 p.1).1 (List.mem_map.2 ⟨p, hp, rfl⟩) i)

theorem grid_axis {κ : K → K} {A : Fin d → List K} {data : List (Vec K d × (Fin B → K))} (hA : Spec.IsGrid A (data.map Prod.fst))
    (hκ : Spec.KeyOk κ A) (hne : data ≠ []) : (reshapeGrid (fun i => (A i).length) (sortGrid κ Prod.fst data)).axis = A := by
  funext c
  have hpos : ∀ i, 0 < (A i).length := fun i => List.length_pos_of_ne_nil (grid_pos hA hne i)
  apply List.ext_getElem?
  intro j
  rw [GridData.axis, List.getElem?_map]
  show Option.map _ (List.range (A c).length)[j]? = _
  by_cases hj : j < (A c).length
  · rw [List.getElem?_range hj, Option.map_some]
    have hlt : ∀ i, (Pi.single c j : Fin d → ℕ) i < (A i).length := by
      intro i
      by_cases hi : i = c
      · subst hi; simpa using hj
      · simpa [Pi.single_eq_of_ne hi] using hpos i
    have h := (grid_at (B := B) hA hκ (Pi.single c j) (fun i => (A i)[(Pi.single c j : Fin d → ℕ) i]'(hlt i)) fun i => List.getElem?_eq_getElem (hlt i)).1
    rw [h, List.getElem?_eq_getElem hj]
    simp
  · rw [List.getElem?_eq_none (by simpa using hj), List.getElem?_eq_none (by simpa using hj)]
    rfl

theorem grid_ext {κ : K → K} {A : Fin d → List K} {data : List (Vec K d × (Fin B → K))} (hA : Spec.IsGrid A (data.map Prod.fst))
    (hκ : Spec.KeyOk κ A) (hne : data ≠ []) :
    let e := (List.finRange d).foldl GridData.extend (reshapeGrid (fun i => (A i).length) (sortGrid κ Prod.fst data))
    e.axis = (fun i => extAxis (A i)) ∧ ∀ (idx : Fin d → ℕ) (x : Vec K d), (∀ i, (A i)[takeWrap (A i).length (idx i)]? = some (x i)) → (x, e.v idx) ∈ data := by
  intro e
  have hpos : ∀ i, 0 < (A i).length := fun i => List.length_pos_of_ne_nil (grid_pos hA hne i)
  obtain ⟨h1, h2, h3⟩ := extend_foldl (fun i => (A i).length) (reshapeGrid (fun i => (A i).length) (sortGrid κ Prod.fst data)) rfl (List.finRange d)
    (List.nodup_finRange d)
  simp only [List.mem_finRange, if_true] at h1 h2 h3
  refine ⟨?_, ?_⟩
  · funext c
    rw [GridData.axis, extAxis]
    show List.map (fun j => e.k (Pi.single c j) c) (List.range (e.shape c)) = _
    rw [show e.shape = _ from h1]
    apply List.map_congr_left
    intro j hj
    have hlt : ∀ i, takeWrap (A i).length ((Pi.single c j : Fin d → ℕ) i) < (A i).length := fun i => takeWrap_lt _ _ (hpos i)
    have h := (grid_at (B := B) hA hκ (fun i => takeWrap (A i).length ((Pi.single c j : Fin d → ℕ) i))
      (fun i => (A i)[takeWrap (A i).length ((Pi.single c j : Fin d → ℕ) i)]'(hlt i)) fun i => List.getElem?_eq_getElem (hlt i)).1
    rw [show e.k (Pi.single c j) = _ from h3 _, h, Pi.add_apply]
    simp only [Pi.single_eq_same]
    rw [List.getD_eq_getElem _ _ (takeWrap_lt _ _ (hpos c))]
  · intro idx x hx
    rw [show e.v idx = _ from h2 idx]
    exact (grid_at hA hκ _ x hx).2

theorem defaultGrid_pow (hd : 0 < d) (m : ℕ) : defaultGrid d (m ^ d) = m := by
  rw [defaultGrid, Nat.cast_pow, one_div, Real.pow_rpow_inv_natCast (by positivity) hd.ne']
  rw [show ((m : ℕ) : ℝ) = ((m : ℤ) : ℝ) by simp, round_intCast]; simp

end TB
