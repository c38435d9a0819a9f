import Verif.Props.FormatsSpec
import Mathlib.Data.List.Sort
import Mathlib.Tactic.Ring
import Mathlib.Tactic.Linarith
import Mathlib.Tactic.SplitIfs
import Mathlib.Data.List.Infix

/-!
# Lemmas about the Wannier90 readers
-/

set_option linter.unusedSectionVars false
set_option linter.unusedSimpArgs false

namespace TB.Fmt

variable {F Tok : Type}

theorem neg_eq (p : Pos) : p.neg = -p := rfl

theorem row_eq (bc i : ℤ) : pyIdx bc (i - 1) = Spec.row bc i := by
  unfold pyIdx Spec.row
  by_cases h1 : 0 ≤ i - 1 ∧ i - 1 < bc
  · rw [if_pos h1, if_pos ⟨by omega, by omega⟩, Int.emod_eq_of_lt h1.1 h1.2]
  · rw [if_neg h1]
    by_cases h2 : -bc ≤ i - 1 ∧ i - 1 < 0
    · rw [if_pos h2, if_pos ⟨by omega, by omega⟩]
      have : (i - 1) % bc = i - 1 + bc := by
        rw [← Int.add_emod_right, Int.emod_eq_of_lt (by omega) (by omega)]
      rw [this]
    · rw [if_neg h2, if_neg (by omega)]

theorem headers_snoc (pInt : Tok → Option ℤ) (ls : List (List Tok)) (l : List Tok) :
    Spec.headers pInt (ls ++ [l]) = Spec.headers pInt ls ++ (Spec.header pInt l).toList := by
  simp only [Spec.headers, List.filterMap_append]
  cases h : Spec.header pInt l <;> simp [List.filterMap, h]

/-- The position the next entry stands under. -/
def cur (pInt : Tok → Option ℤ) (c : Option Pos) (ls : List (List Tok)) : Option Pos :=
  match (Spec.headers pInt ls).getLast? with
  | some R => some R
  | none => c

theorem entries_cons {E : Type} (pInt : Tok → Option ℤ) (parse : List Tok → Option E) (c : Option Pos) (l : List Tok) (ls : List (List Tok)) :
    Spec.entries pInt parse c (l :: ls) =
    match Spec.header pInt l with
    | some R => Spec.entries pInt parse (some R) ls
    | none =>
      (match c, parse l with
       | some R, some e => [(R, e)]
       | _, _ => []) ++ Spec.entries pInt parse c ls := by
  cases c <;> cases h : parse l <;> cases h' : Spec.header pInt l <;> simp [Spec.entries, h, h']

theorem entries_snoc {E : Type} (pInt : Tok → Option ℤ) (parse : List Tok → Option E) (ls : List (List Tok)) (l : List Tok) :
    ∀ c, Spec.entries pInt parse c (ls ++ [l]) = Spec.entries pInt parse c ls ++
      (match Spec.header pInt l with
       | some _ => []
       | none => match cur pInt c ls, parse l with
         | some R, some e => [(R, e)]
         | _, _ => []) := by
  induction ls with
  | nil =>
    intro c
    simp only [List.nil_append, Spec.entries, cur, Spec.headers, List.filterMap_nil, List.getLast?_nil]
    cases Spec.header pInt l <;> cases c <;> cases parse l <;> simp
  | cons x ls ih =>
    intro c
    have hc : ∀ R, Spec.header pInt x = some R → cur pInt c (x :: ls) = cur pInt (some R) ls := by
      intro R hR
      simp only [cur, Spec.headers, List.filterMap_cons, hR]
      cases h : List.filterMap (Spec.header pInt) ls with
      | nil => simp
      | cons y ys => simp [List.getLast?_cons]
    have hn : Spec.header pInt x = none → cur pInt c (x :: ls) = cur pInt c ls := by
      intro hR
      simp only [cur, Spec.headers, List.filterMap_cons, hR]
    rw [List.cons_append, entries_cons, entries_cons]
    cases hx : Spec.header pInt x with
    | some R => simp only [ih, hc R hx]
    | none =>
      simp only [hn hx]
      rw [ih, List.append_assoc]

theorem last_append {V : Type} (z : V) (es : List (Pos × ℕ × ℕ × V)) (R : Pos) (a b : ℕ) (v : V) (Q : Pos) (i j : ℕ) :
    Spec.last z (es ++ [(R, a, b, v)]) Q i j = if R = Q ∧ i = a ∧ j = b then v else Spec.last z es Q i j := by
  by_cases h : R = Q ∧ i = a ∧ j = b
  · obtain ⟨rfl, rfl, rfl⟩ := h
    simp [Spec.last]
  · rw [if_neg h]
    have : ¬ (R = Q ∧ a = i ∧ b = j) := fun h' => h ⟨h'.1, h'.2.1.symm, h'.2.2.symm⟩
    simp [Spec.last, this]

theorem first_snoc_of_mem {hs : List Pos} {R Q : Pos} (hQ : Q ∈ hs ∨ -Q ∈ hs) :
    Spec.First (hs ++ [Q]) R ↔ Spec.First hs R := by
  unfold Spec.First
  rw [List.find?_append]
  cases h : hs.find? (fun q => decide (q = R ∨ q = -R)) with
  | some x => simp
  | none =>
    have h' := List.find?_eq_none.1 h
    simp only [Option.none_or, reduceCtorEq, iff_false]
    rw [List.find?_cons]
    have hn : ¬ (Q = R ∨ Q = -R) := by
      rintro (rfl | rfl)
      · rcases hQ with hQ | hQ
        · exact h' _ hQ (by simp)
        · exact h' _ hQ (by simp)
      · rcases hQ with hQ | hQ
        · exact h' _ hQ (by simp)
        · exact h' _ hQ (by simp)
    simp [hn]

theorem first_mem {hs : List Pos} {R : Pos} (h : Spec.First hs R) : R ∈ hs := List.mem_of_find?_eq_some h

theorem exists_first {hs : List Pos} {Q : Pos} (h : Q ∈ hs) : Spec.First hs Q ∨ Spec.First hs (-Q) := by
  unfold Spec.First
  cases hf : hs.find? (fun q => decide (q = Q ∨ q = -Q)) with
  | none => exact absurd (List.find?_eq_none.1 hf Q h) (by simp)
  | some x =>
    have hx := List.find?_some hf
    simp only [decide_eq_true_eq] at hx
    rcases hx with rfl | rfl
    · exact Or.inl rfl
    · refine Or.inr ?_
      rw [← hf]
      congr 1
      funext q
      rw [neg_neg]
      exact decide_eq_decide.2 or_comm

theorem first_snoc_of_notMem {hs : List Pos} {R Q : Pos} (h1 : Q ∉ hs) (h2 : -Q ∉ hs) :
    Spec.First (hs ++ [Q]) R ↔ Spec.First hs R ∨ R = Q := by
  unfold Spec.First
  rw [List.find?_append]
  cases h : hs.find? (fun q => decide (q = R ∨ q = -R)) with
  | some x =>
    have hm := List.mem_of_find?_eq_some h
    have hx := List.find?_some h
    simp only [decide_eq_true_eq] at hx
    simp only [Option.some_or, Option.some.injEq]
    constructor
    · exact Or.inl
    · rintro (h' | rfl)
      · exact h'
      · rcases hx with rfl | rfl
        · rfl
        · exact absurd hm h2
  | none =>
    simp only [Option.none_or, List.find?_cons, reduceCtorEq, false_or]
    by_cases hQ : Q = R
    · simp [hQ]
    · constructor
      · intro h'
        split at h'
        · exact (Option.some.inj h').symm
        · simp at h'
      · intro h'; exact absurd h'.symm hQ

theorem two_first {hs : List Pos} {R : Pos} (h1 : Spec.First hs R) (h2 : Spec.First hs (-R)) : R = -R := by
  unfold Spec.First at h1 h2
  rw [neg_neg] at h2
  have : (fun q => decide (q = R ∨ q = -R)) = fun q : Pos => decide (q = -R ∨ q = R) := by
    funext q; exact decide_eq_decide.2 or_comm
  rw [this, h2] at h1
  exact (Option.some.inj h1).symm

/-- Invariant of the reading loop after the lines `pre`. -/
structure Inv [Zero F] (pInt : Tok → Option ℤ) (pFlt : Tok → Option F) (bc : ℤ) (pre : List (List Tok)) (s : St F) : Prop where
  content : Spec.Content pInt pFlt bc pre s.blocks
  some_idx : ∀ k, s.index = some k → ∃ b, s.blocks[k]? = some b ∧ (Spec.headers pInt pre).getLast? = some b.pos
  none_idx : s.index = none → ∀ R, (Spec.headers pInt pre).getLast? = some R → ¬ Spec.First (Spec.headers pInt pre) R
  bc_nonneg : s.blocks ≠ [] → 0 ≤ bc

variable [Zero F] {pInt : Tok → Option ℤ} {pFlt : Tok → Option F} {bc : ℤ} {pre : List (List Tok)} {s : St F}

theorem inv_init : Inv (F := F) pInt pFlt bc [] ⟨[], none⟩ := by
  refine ⟨⟨List.nodup_nil, ?_, ?_⟩, ?_, ?_, ?_⟩
  · intro R; simp [Spec.First, Spec.headers]
  · intro b hb; simp at hb
  · intro k hk; simp at hk
  · intro _ R hR; simp [Spec.headers] at hR
  · intro h; exact absurd rfl h

theorem cur_none (pre : List (List Tok)) : cur pInt none pre = (Spec.headers pInt pre).getLast? := by
  unfold cur
  cases (Spec.headers pInt pre).getLast? <;> rfl

/-- A line that is neither a position nor an entry changes nothing. -/
theorem content_blank {l : List Tok} {bl : List (Block F)} (h : Spec.Content pInt pFlt bc pre bl) (h1 : Spec.header pInt l = none)
    (h2 : Spec.hEntry pInt pFlt bc l = none) (h3 : Spec.rEntry pInt pFlt bc l = none) : Spec.Content pInt pFlt bc (pre ++ [l]) bl := by
  unfold Spec.Content
  simp only [headers_snoc, entries_snoc, h1, h2, h3, Option.toList_none, List.append_nil]
  have e : ∀ {E : Type}, (match cur pInt none pre, (none : Option E) with
    | some R, some e => [(R, e)]
    | _, _ => []) = [] := by intro E; cases cur pInt none pre <;> rfl
  simp only [e, List.append_nil]
  exact h

/-- A position that is known up to sign changes no block. -/
theorem content_known {l : List Tok} {bl : List (Block F)} {Q : Pos} (h : Spec.Content pInt pFlt bc pre bl)
    (h1 : Spec.header pInt l = some Q) (hQ : Q ∈ Spec.headers pInt pre ∨ -Q ∈ Spec.headers pInt pre) :
    Spec.Content pInt pFlt bc (pre ++ [l]) bl := by
  unfold Spec.Content
  simp only [headers_snoc, entries_snoc, h1, Option.toList_some, List.append_nil]
  refine ⟨h.1, fun R => ?_, h.2.2⟩
  rw [first_snoc_of_mem hQ]
  exact h.2.1 R

theorem entries_pos {E : Type} (parse : List Tok → Option E) (ls : List (List Tok)) :
    ∀ c, ∀ e ∈ Spec.entries pInt parse c ls, e.1 ∈ Spec.headers pInt ls ∨ c = some e.1 := by
  induction ls with
  | nil => intro c e he; simp [Spec.entries] at he
  | cons l ls ih =>
    intro c e he
    rw [entries_cons] at he
    cases hl : Spec.header pInt l with
    | some R =>
      rw [hl] at he
      have hh : Spec.headers pInt (l :: ls) = R :: Spec.headers pInt ls := by
        simp [Spec.headers, List.filterMap_cons, hl]
      rcases ih _ _ he with h | h
      · left; rw [hh]; exact List.mem_cons_of_mem _ h
      · left; rw [hh, Option.some.inj h]; exact List.mem_cons_self
    | none =>
      rw [hl] at he
      have hh : Spec.headers pInt (l :: ls) = Spec.headers pInt ls := by
        simp [Spec.headers, List.filterMap_cons, hl]
      rw [hh]
      rcases List.mem_append.1 he with h | h
      · right
        cases c with
        | none => simp at h
        | some R =>
          cases hp : parse l with
          | none => simp [hp] at h
          | some v => simp only [hp, List.mem_singleton] at h; rw [h]
      · exact ih _ _ h

theorem last_of_new {V : Type} (z : V) (es : List (Pos × ℕ × ℕ × V)) (R : Pos) (i j : ℕ) (h : ∀ e ∈ es, e.1 ≠ R) :
    Spec.last z es R i j = z := by
  unfold Spec.last
  have : es.reverse.find? (fun e => decide (e.1 = R ∧ e.2.1 = i ∧ e.2.2.1 = j)) = none := by
    rw [List.find?_eq_none]
    intro e he
    simp only [decide_eq_true_eq]
    exact fun h' => h e (List.mem_reverse.1 he) h'.1
  rw [this]; rfl

/-- A new position adds a block of zeros. -/
theorem content_new {l : List Tok} {bl : List (Block F)} {Q : Pos} (h : Spec.Content pInt pFlt bc pre bl)
    (h1 : Spec.header pInt l = some Q) (hQ : Q ∉ Spec.headers pInt pre) (hQ' : -Q ∉ Spec.headers pInt pre) :
    Spec.Content pInt pFlt bc (pre ++ [l]) (bl ++ [⟨Q, fun _ _ => (0, 0), fun _ _ => ((0, 0), (0, 0), (0, 0))⟩]) := by
  unfold Spec.Content
  simp only [headers_snoc, entries_snoc, h1, Option.toList_some, List.append_nil]
  refine ⟨?_, fun R => ?_, ?_⟩
  · rw [List.map_append, List.nodup_append]
    refine ⟨h.1, by simp, ?_⟩
    intro a ha b hb
    simp only [List.map_cons, List.map_nil, List.mem_singleton] at hb
    rw [hb]
    rintro rfl
    exact hQ (first_mem ((h.2.1 a).1 ha))
  · rw [first_snoc_of_notMem hQ hQ', List.map_append, List.mem_append, h.2.1 R]
    simp
  · intro b hb i j
    rcases List.mem_append.1 hb with hb | hb
    · exact h.2.2 b hb i j
    · rw [List.mem_singleton] at hb
      subst hb
      constructor
      · rw [last_of_new]
        intro e he hR
        rcases entries_pos _ _ _ _ he with h' | h'
        · exact hQ ((show e.1 = Q from hR) ▸ h')
        · simp at h'
      · rw [last_of_new]
        intro e he hR
        rcases entries_pos _ _ _ _ he with h' | h'
        · exact hQ ((show e.1 = Q from hR) ▸ h')
        · simp at h'

theorem modify_mem {α : Type} {l : List α} {k : ℕ} {f : α → α} {y : α} (h : y ∈ l.modify k f) :
    ∃ m x, l[m]? = some x ∧ y = if k = m then f x else x := by
  obtain ⟨m, hm⟩ := List.mem_iff_getElem?.1 h
  rw [List.getElem?_modify] at hm
  cases hx : l[m]? with
  | none => rw [hx] at hm; simp at hm
  | some x =>
    rw [hx] at hm
    refine ⟨m, x, hx, ?_⟩
    exact (Option.some.inj hm).symm

theorem modify_pos (bl : List (Block F)) (k : ℕ) (f : Block F → Block F) (hf : ∀ b, (f b).pos = b.pos) :
    (bl.modify k f).map Block.pos = bl.map Block.pos := by
  apply List.ext_getElem?
  intro i
  rw [List.getElem?_map, List.getElem?_modify, List.getElem?_map]
  cases bl[i]? with
  | none => rfl
  | some b => simp only [Option.map_some]; split_ifs <;> simp [hf]

theorem idx_unique {bl : List (Block F)} (hn : (bl.map Block.pos).Nodup) {k m : ℕ} {b c : Block F} (h1 : bl[k]? = some b)
    (h2 : bl[m]? = some c) (h : b.pos = c.pos) : k = m := by
  have hk : (bl.map Block.pos)[k]? = some b.pos := by rw [List.getElem?_map, h1]; rfl
  have hm : (bl.map Block.pos)[m]? = some b.pos := by rw [List.getElem?_map, h2, h]; rfl
  obtain ⟨hk1, hk2⟩ := List.getElem?_eq_some_iff.1 hk
  obtain ⟨hm1, hm2⟩ := List.getElem?_eq_some_iff.1 hm
  exact (List.Nodup.getElem_inj_iff hn).1 (hk2.trans hm2.symm)

/-- A matrix entry. -/
theorem content_h {l : List Tok} {bl : List (Block F)} {k i j : ℕ} {v : Cx F} {b : Block F} (h : Spec.Content pInt pFlt bc pre bl)
    (hb : bl[k]? = some b) (hc : (Spec.headers pInt pre).getLast? = some b.pos)
    (h1 : Spec.header pInt l = none) (h2 : Spec.hEntry pInt pFlt bc l = some (i, j, v)) (h3 : Spec.rEntry pInt pFlt bc l = none) :
    Spec.Content pInt pFlt bc (pre ++ [l]) (bl.modify k fun x => { x with H := setAt x.H i j v }) := by
  unfold Spec.Content
  simp only [headers_snoc, entries_snoc, h1, h2, h3, Option.toList_none, List.append_nil, cur_none, hc]
  rw [modify_pos bl k (fun x => { x with H := setAt x.H i j v }) (fun _ => rfl)]
  refine ⟨h.1, h.2.1, ?_⟩
  intro y hy p q
  obtain ⟨m, x, hx, rfl⟩ := modify_mem hy
  have hxc := h.2.2 x (List.mem_of_getElem? hx) p q
  have hkm : b.pos = x.pos ↔ k = m := by
    constructor
    · exact idx_unique h.1 hb hx
    · rintro rfl; rw [hb] at hx; rw [Option.some.inj hx]
  rw [last_append]
  by_cases he : k = m
  · rw [if_pos he]
    simp only [hkm.2 he, true_and]
    refine ⟨?_, hxc.2⟩
    unfold setAt
    by_cases hh : p = i ∧ q = j
    · rw [if_pos hh, if_pos hh]
    · rw [if_neg hh, if_neg hh]; exact hxc.1
  · rw [if_neg he, if_neg (fun h' => he (hkm.1 h'.1))]
    exact hxc

/-- A position entry. -/
theorem content_r {l : List Tok} {bl : List (Block F)} {k i j : ℕ} {v : Cx F × Cx F × Cx F} {b : Block F} (h : Spec.Content pInt pFlt bc pre bl)
    (hb : bl[k]? = some b) (hc : (Spec.headers pInt pre).getLast? = some b.pos)
    (h1 : Spec.header pInt l = none) (h2 : Spec.hEntry pInt pFlt bc l = none) (h3 : Spec.rEntry pInt pFlt bc l = some (i, j, v)) :
    Spec.Content pInt pFlt bc (pre ++ [l]) (bl.modify k fun x => { x with r := setAt x.r i j v }) := by
  unfold Spec.Content
  simp only [headers_snoc, entries_snoc, h1, h2, h3, Option.toList_none, List.append_nil, cur_none, hc]
  rw [modify_pos bl k (fun x => { x with r := setAt x.r i j v }) (fun _ => rfl)]
  refine ⟨h.1, h.2.1, ?_⟩
  intro y hy p q
  obtain ⟨m, x, hx, rfl⟩ := modify_mem hy
  have hxc := h.2.2 x (List.mem_of_getElem? hx) p q
  have hkm : b.pos = x.pos ↔ k = m := by
    constructor
    · exact idx_unique h.1 hb hx
    · rintro rfl; rw [hb] at hx; rw [Option.some.inj hx]
  rw [last_append]
  by_cases he : k = m
  · rw [if_pos he]
    simp only [hkm.2 he, true_and]
    refine ⟨hxc.1, ?_⟩
    unfold setAt
    by_cases hh : p = i ∧ q = j
    · rw [if_pos hh, if_pos hh]
    · rw [if_neg hh, if_neg hh]; exact hxc.2
  · rw [if_neg he, if_neg (fun h' => he (hkm.1 h'.1))]
    exact hxc

/-- The entries of a position that is left out do not matter. -/
theorem content_skip {l : List Tok} {bl : List (Block F)} (h : Spec.Content pInt pFlt bc pre bl)
    (hc : ∀ R, (Spec.headers pInt pre).getLast? = some R → ¬ Spec.First (Spec.headers pInt pre) R)
    (h1 : Spec.header pInt l = none) : Spec.Content pInt pFlt bc (pre ++ [l]) bl := by
  unfold Spec.Content
  simp only [headers_snoc, entries_snoc, h1, Option.toList_none, List.append_nil, cur_none]
  refine ⟨h.1, h.2.1, ?_⟩
  intro b hb i j
  have hbF := (h.2.1 b.pos).1 (List.mem_map_of_mem hb)
  cases hg : (Spec.headers pInt pre).getLast? with
  | none => simp only [List.append_nil]; exact h.2.2 b hb i j
  | some R =>
    have hR : R ≠ b.pos := fun h' => hc R hg (h' ▸ hbF)
    constructor
    · cases Spec.hEntry pInt pFlt bc l with
      | none => simp only [List.append_nil]; exact (h.2.2 b hb i j).1
      | some e =>
        obtain ⟨p, q, v⟩ := e
        simp only
        rw [last_append, if_neg (fun h' => hR h'.1)]; exact (h.2.2 b hb i j).1
    · cases Spec.rEntry pInt pFlt bc l with
      | none => simp only [List.append_nil]; exact (h.2.2 b hb i j).2
      | some e =>
        obtain ⟨p, q, v⟩ := e
        simp only
        rw [last_append, if_neg (fun h' => hR h'.1)]; exact (h.2.2 b hb i j).2

theorem enter_ok (h : Inv pInt pFlt bc pre s) {l : List Tok} {Q : Pos} (hl : Spec.header pInt l = some Q) :
    (0 ≤ bc → ∃ s', enter bc s.blocks Q = .ok s' ∧ Inv pInt pFlt bc (pre ++ [l]) s') ∧
      (bc < 0 → enter bc s.blocks Q = .error .valueError) := by
  have hlast : (Spec.headers pInt (pre ++ [l])).getLast? = some Q := by
    rw [headers_snoc, hl]; simp
  have hmem : ∀ R, R ∈ Spec.headers pInt pre → R ∈ s.blocks.map Block.pos ∨ -R ∈ s.blocks.map Block.pos := by
    intro R hR
    rw [h.content.2.1, h.content.2.1]
    exact exists_first hR
  unfold enter
  cases hf : s.blocks.findIdx? (fun b => decide (b.pos = Q)) with
  | some k =>
    obtain ⟨hk, hk2, -⟩ := List.findIdx?_eq_some_iff_getElem.1 hf
    rw [decide_eq_true_eq] at hk2
    have hne : s.blocks ≠ [] := by rintro he; rw [he] at hk; simp at hk
    refine ⟨fun _ => ⟨_, rfl, ?_⟩, fun hneg => absurd (h.bc_nonneg hne) (by omega)⟩
    have hQm : Q ∈ s.blocks.map Block.pos := by rw [← hk2]; exact List.mem_map_of_mem (List.getElem_mem hk)
    have hQ : Q ∈ Spec.headers pInt pre := first_mem ((h.content.2.1 Q).1 hQm)
    refine ⟨content_known h.content hl (Or.inl hQ), ?_, ?_, h.bc_nonneg⟩
    · intro k' hk'
      simp only [Option.some.injEq] at hk'
      subst hk'
      exact ⟨s.blocks[k], List.getElem?_eq_getElem hk, by rw [hlast, hk2]⟩
    · intro hn; simp at hn
  | none =>
    have hQ : Q ∉ s.blocks.map Block.pos := by
      intro hm
      obtain ⟨b, hb, hbQ⟩ := List.mem_map.1 hm
      have := List.findIdx?_eq_none_iff.1 hf b hb
      simp [hbQ] at this
    simp only
    by_cases hc : Q ≠ Q.neg ∧ Q.neg ∈ s.blocks.map Block.pos
    · rw [if_pos hc]
      have hne : s.blocks ≠ [] := by rintro he; rw [he] at hc; simp at hc
      refine ⟨fun _ => ⟨_, rfl, ?_⟩, fun hneg => absurd (h.bc_nonneg hne) (by omega)⟩
      rw [neg_eq] at hc
      have hQ' : -Q ∈ Spec.headers pInt pre := first_mem ((h.content.2.1 _).1 hc.2)
      have hcont := content_known h.content hl (Or.inr hQ')
      refine ⟨hcont, ?_, ?_, h.bc_nonneg⟩
      · intro k hk; simp at hk
      · intro _ R hR
        rw [hlast] at hR
        obtain rfl := Option.some.inj hR
        exact fun hF => hQ ((hcont.2.1 Q).2 hF)
    · rw [if_neg hc]
      have hnew : -Q ∉ s.blocks.map Block.pos := by
        intro hm
        rw [neg_eq] at hc
        by_cases he : Q = -Q
        · exact hQ (he ▸ hm)
        · exact hc ⟨he, hm⟩
      have h1 : Q ∉ Spec.headers pInt pre := fun hm => (hmem Q hm).elim hQ hnew
      have h2 : -Q ∉ Spec.headers pInt pre := fun hm => (hmem _ hm).elim hnew (by rw [neg_neg]; exact hQ)
      refine ⟨fun hb => ?_, fun hb => by rw [if_pos hb]⟩
      rw [if_neg (by omega)]
      refine ⟨_, rfl, content_new h.content hl h1 h2, ?_, ?_, fun _ => hb⟩
      · intro k hk
        simp only [Option.some.injEq] at hk
        subst hk
        exact ⟨⟨Q, fun _ _ => (0, 0), fun _ _ => ((0, 0), (0, 0), (0, 0))⟩, by simp, by rw [hlast]⟩
      · intro hn; simp at hn

theorem getLast_snoc {l : List Tok} (h : Spec.header pInt l = none) :
    Spec.headers pInt (pre ++ [l]) = Spec.headers pInt pre := by
  rw [headers_snoc, h]; simp

theorem idx_some (h : Inv pInt pFlt bc pre s) {k : ℕ} (hk : s.index = some k) :
    (∀ R, (Spec.headers pInt pre).getLast? = some R → Spec.First (Spec.headers pInt pre) R) ∧ Spec.headers pInt pre ≠ [] := by
  obtain ⟨b, hb, hl⟩ := h.some_idx k hk
  refine ⟨fun R hR => ?_, ?_⟩
  · rw [hl] at hR
    obtain rfl := Option.some.inj hR
    exact (h.content.2.1 _).1 (List.mem_map_of_mem (List.mem_of_getElem? hb))
  · intro he; rw [he] at hl; simp at hl

theorem idx_none (h : Inv pInt pFlt bc pre s) (hk : s.index = none) :
    ¬ ((∀ R, (Spec.headers pInt pre).getLast? = some R → Spec.First (Spec.headers pInt pre) R) ∧ Spec.headers pInt pre ≠ []) := by
  rintro ⟨h1, h2⟩
  cases hg : (Spec.headers pInt pre).getLast? with
  | none => exact h2 (List.getLast?_eq_none_iff.1 hg)
  | some R => exact h.none_idx hk R hg (h1 R hg)

/-- Outcome of one line. -/
def Outcome (pInt : Tok → Option ℤ) (pFlt : Tok → Option F) (bc : ℤ) (pre : List (List Tok)) (l : List Tok) (r : Except Err (St F)) : Prop :=
  (∃ s', r = .ok s' ∧ Inv pInt pFlt bc (pre ++ [l]) s' ∧ Spec.LineOk pInt pFlt bc pre l) ∨
    (∃ e, r = .error e ∧ (e = .valueError ∨ e = .indexError) ∧ ¬ Spec.LineOk pInt pFlt bc pre l)

theorem outcome_skip (h : Inv pInt pFlt bc pre s) {l : List Tok} (hl : Spec.header pInt l = none) (hlen : l.length = 4 ∨ l.length = 8)
    (hk : s.index = none) : Outcome pInt pFlt bc pre l (.ok s) := by
  refine Or.inl ⟨s, rfl, ⟨content_skip h.content (h.none_idx hk) hl, ?_, ?_, h.bc_nonneg⟩, ?_⟩
  · rw [getLast_snoc hl]; exact h.some_idx
  · rw [getLast_snoc hl]; exact h.none_idx
  · exact Or.inr (Or.inr ⟨hlen, fun h1 h2 => absurd ⟨h1, h2⟩ (idx_none h hk)⟩)

theorem outcome_bad (h : Inv pInt pFlt bc pre s) {l : List Tok} (hl : Spec.header pInt l = none) (hne : l ≠ [])
    {k : ℕ} (hk : s.index = some k) (h2 : Spec.hEntry pInt pFlt bc l = none) (h3 : Spec.rEntry pInt pFlt bc l = none) {e : Err}
    (he : e = .valueError ∨ e = .indexError) : Outcome pInt pFlt bc pre l (.error e) := by
  refine Or.inr ⟨e, rfl, he, ?_⟩
  rintro (h' | h' | ⟨-, h'⟩)
  · exact hne h'
  · exact h'.1 hl
  · rcases h' (idx_some h hk).1 (idx_some h hk).2 with h' | h'
    · exact h' h2
    · exact h' h3

theorem step4 (h : Inv pInt pFlt bc pre s) (a b c d : Tok) :
    Outcome pInt pFlt bc pre [a, b, c, d] (tbLine pInt pFlt bc s [a, b, c, d]) := by
  have hl : Spec.header pInt [a, b, c, d] = none := rfl
  have h3 : Spec.rEntry pInt pFlt bc [a, b, c, d] = none := rfl
  unfold tbLine
  cases hk : s.index with
  | none => exact outcome_skip h hl (by simp) hk
  | some k =>
    simp only
    cases ha : pInt a with
    | none => simp only [entryIdx, toInt, ha, Bind.bind, Except.bind]; exact outcome_bad h hl (by simp) hk (by simp [Spec.hEntry, ha]) h3 (by simp)
    | some i =>
    cases hb : pInt b with
    | none =>
      simp only [entryIdx, toInt, ha, hb, Bind.bind, Except.bind]
      exact outcome_bad h hl (by simp) hk (by simp [Spec.hEntry, ha, hb]) h3 (by simp)
    | some j =>
    cases hc : pFlt c with
    | none =>
      simp only [entryIdx, toInt, toFlt, ha, hb, hc, Bind.bind, Except.bind, Pure.pure, Except.pure]
      exact outcome_bad h hl (by simp) hk (by cases h1 : Spec.row bc i <;> cases h2 : Spec.row bc j <;> simp [Spec.hEntry, ha, hb, hc, h1, h2]) h3 (by simp)
    | some x =>
    cases hd : pFlt d with
    | none =>
      simp only [entryIdx, toInt, toFlt, ha, hb, hc, hd, Bind.bind, Except.bind, Pure.pure, Except.pure]
      exact outcome_bad h hl (by simp) hk (by cases h1 : Spec.row bc i <;> cases h2 : Spec.row bc j <;> simp [Spec.hEntry, ha, hb, hc, hd, h1, h2]) h3 (by simp)
    | some y =>
    simp only [entryIdx, toInt, toFlt, ha, hb, hc, hd, Bind.bind, Except.bind, Pure.pure, Except.pure, assign, row_eq]
    cases hi : Spec.row bc i with
    | none => simp only; exact outcome_bad h hl (by simp) hk (by simp [Spec.hEntry, ha, hi]) h3 (by simp)
    | some i' =>
    cases hj : Spec.row bc j with
    | none => simp only; exact outcome_bad h hl (by simp) hk (by simp [Spec.hEntry, ha, hb, hi, hj]) h3 (by simp)
    | some j' =>
    simp only
    obtain ⟨blk, hblk, hlast⟩ := h.some_idx k hk
    have he : Spec.hEntry pInt pFlt bc [a, b, c, d] = some (i', j', (x, y)) := by simp [Spec.hEntry, ha, hb, hc, hd, hi, hj]
    refine Or.inl ⟨_, rfl, ⟨content_h h.content hblk hlast hl he h3, ?_, ?_, ?_⟩, Or.inr (Or.inr ⟨by simp, fun _ _ => Or.inl (by simp [he])⟩)⟩
    · rw [getLast_snoc hl]
      intro k' hk'
      obtain rfl := Option.some.inj hk'
      refine ⟨{ blk with H := setAt blk.H i' j' (x, y) }, ?_, hlast⟩
      rw [List.getElem?_modify, hblk]; simp
    · intro hn; simp at hn
    · intro hne
      apply h.bc_nonneg
      rintro h0
      rw [h0] at hne; simp at hne

theorem step8 (h : Inv pInt pFlt bc pre s) (a b c d e f g m : Tok) :
    Outcome pInt pFlt bc pre [a, b, c, d, e, f, g, m] (tbLine pInt pFlt bc s [a, b, c, d, e, f, g, m]) := by
  have hl : Spec.header pInt [a, b, c, d, e, f, g, m] = none := rfl
  have h3 : Spec.hEntry pInt pFlt bc [a, b, c, d, e, f, g, m] = none := rfl
  unfold tbLine
  cases hk : s.index with
  | none => exact outcome_skip h hl (by simp) hk
  | some k =>
    simp only
    cases ha : pInt a with
    | none =>
      simp only [entryIdx, toInt, toFlt, ha, Bind.bind, Except.bind, Pure.pure, Except.pure]
      exact outcome_bad h hl (by simp) hk h3 (by simp [Spec.rEntry, ha]) (by simp)
    | some i =>
    cases hb : pInt b with
    | none =>
      simp only [entryIdx, toInt, toFlt, ha, hb, Bind.bind, Except.bind, Pure.pure, Except.pure]
      exact outcome_bad h hl (by simp) hk h3 (by simp [Spec.rEntry, ha, hb]) (by simp)
    | some j =>
    cases hc : pFlt c with
    | none =>
      simp only [entryIdx, toInt, toFlt, ha, hb, hc, Bind.bind, Except.bind, Pure.pure, Except.pure]
      exact outcome_bad h hl (by simp) hk h3 (by cases h1 : Spec.row bc i <;> cases h2 : Spec.row bc j <;> simp [Spec.rEntry, ha, hb, hc, h1, h2]) (by simp)
    | some xc =>
    cases hd : pFlt d with
    | none =>
      simp only [entryIdx, toInt, toFlt, ha, hb, hc, hd, Bind.bind, Except.bind, Pure.pure, Except.pure]
      exact outcome_bad h hl (by simp) hk h3 (by cases h1 : Spec.row bc i <;> cases h2 : Spec.row bc j <;> simp [Spec.rEntry, ha, hb, hc, hd, h1, h2]) (by simp)
    | some xd =>
    cases he : pFlt e with
    | none =>
      simp only [entryIdx, toInt, toFlt, ha, hb, hc, hd, he, Bind.bind, Except.bind, Pure.pure, Except.pure]
      exact outcome_bad h hl (by simp) hk h3 (by cases h1 : Spec.row bc i <;> cases h2 : Spec.row bc j <;> simp [Spec.rEntry, ha, hb, hc, hd, he, h1, h2]) (by simp)
    | some xe =>
    cases hf : pFlt f with
    | none =>
      simp only [entryIdx, toInt, toFlt, ha, hb, hc, hd, he, hf, Bind.bind, Except.bind, Pure.pure, Except.pure]
      exact outcome_bad h hl (by simp) hk h3 (by cases h1 : Spec.row bc i <;> cases h2 : Spec.row bc j <;> simp [Spec.rEntry, ha, hb, hc, hd, he, hf, h1, h2]) (by simp)
    | some xf =>
    cases hg : pFlt g with
    | none =>
      simp only [entryIdx, toInt, toFlt, ha, hb, hc, hd, he, hf, hg, Bind.bind, Except.bind, Pure.pure, Except.pure]
      exact outcome_bad h hl (by simp) hk h3 (by cases h1 : Spec.row bc i <;> cases h2 : Spec.row bc j <;> simp [Spec.rEntry, ha, hb, hc, hd, he, hf, hg, h1, h2]) (by simp)
    | some xg =>
    cases hm : pFlt m with
    | none =>
      simp only [entryIdx, toInt, toFlt, ha, hb, hc, hd, he, hf, hg, hm, Bind.bind, Except.bind, Pure.pure, Except.pure]
      exact outcome_bad h hl (by simp) hk h3 (by cases h1 : Spec.row bc i <;> cases h2 : Spec.row bc j <;> simp [Spec.rEntry, ha, hb, hc, hd, he, hf, hg, hm, h1, h2]) (by simp)
    | some xm =>
    simp only [entryIdx, toInt, toFlt, ha, hb, hc, hd, he, hf, hg, hm, Bind.bind, Except.bind, Pure.pure, Except.pure, assign, row_eq]
    cases hi : Spec.row bc i with
    | none => simp only; exact outcome_bad h hl (by simp) hk h3 (by simp [Spec.rEntry, ha, hi]) (by simp)
    | some i' =>
    cases hj : Spec.row bc j with
    | none => simp only; exact outcome_bad h hl (by simp) hk h3 (by simp [Spec.rEntry, ha, hb, hi, hj]) (by simp)
    | some j' =>
    simp only
    obtain ⟨blk, hblk, hlast⟩ := h.some_idx k hk
    have he : Spec.rEntry pInt pFlt bc [a, b, c, d, e, f, g, m] = some (i', j', (xc, xd), (xe, xf), (xg, xm)) := by
      simp [Spec.rEntry, ha, hb, hc, hd, he, hf, hg, hm, hi, hj]
    refine Or.inl ⟨_, rfl, ⟨content_r h.content hblk hlast hl h3 he, ?_, ?_, ?_⟩, Or.inr (Or.inr ⟨by simp, fun _ _ => Or.inr (by simp [he])⟩)⟩
    · rw [getLast_snoc hl]
      intro k' hk'
      obtain rfl := Option.some.inj hk'
      refine ⟨{ blk with r := setAt blk.r i' j' ((xc, xd), (xe, xf), (xg, xm)) }, ?_, hlast⟩
      rw [List.getElem?_modify, hblk]; simp
    · intro hn; simp at hn
    · intro hne
      apply h.bc_nonneg
      rintro h0
      rw [h0] at hne; simp at hne

theorem step3 (h : Inv pInt pFlt bc pre s) (a b c : Tok) :
    Outcome pInt pFlt bc pre [a, b, c] (tbLine pInt pFlt bc s [a, b, c]) := by
  have bad : Spec.header pInt [a, b, c] = none → ¬ Spec.LineOk pInt pFlt bc pre [a, b, c] := by
    intro h0
    rintro (h' | h' | ⟨h', -⟩)
    · simp at h'
    · exact h'.1 h0
    · simp at h'
  unfold tbLine
  cases ha : pInt a with
  | none =>
    simp only [toInt, ha, Bind.bind, Except.bind]
    exact Or.inr ⟨_, rfl, by simp, bad (by simp [Spec.header, ha])⟩
  | some x =>
  cases hb : pInt b with
  | none =>
    simp only [toInt, ha, hb, Bind.bind, Except.bind]
    exact Or.inr ⟨_, rfl, by simp, bad (by simp [Spec.header, ha, hb])⟩
  | some y =>
  cases hc : pInt c with
  | none =>
    simp only [toInt, ha, hb, hc, Bind.bind, Except.bind]
    exact Or.inr ⟨_, rfl, by simp, bad (by simp [Spec.header, ha, hb, hc])⟩
  | some z =>
  simp only [toInt, ha, hb, hc, Bind.bind, Except.bind]
  have hl : Spec.header pInt [a, b, c] = some (x, y, z) := by simp [Spec.header, ha, hb, hc]
  obtain ⟨h1, h2⟩ := enter_ok h hl
  by_cases hbc : 0 ≤ bc
  · obtain ⟨s', hs', hi⟩ := h1 hbc
    exact Or.inl ⟨s', hs', hi, Or.inr (Or.inl ⟨by simp [hl], hbc⟩)⟩
  · refine Or.inr ⟨_, h2 (by omega), by simp, ?_⟩
    rintro (h' | h' | ⟨h', -⟩)
    · simp at h'
    · exact hbc h'.2
    · simp at h'

theorem step0 (h : Inv pInt pFlt bc pre s) : Outcome pInt pFlt bc pre [] (tbLine pInt pFlt bc s []) := by
  have hl : Spec.header pInt ([] : List Tok) = none := rfl
  refine Or.inl ⟨s, rfl, ⟨content_blank h.content rfl rfl rfl, ?_, ?_, h.bc_nonneg⟩, Or.inl rfl⟩
  · rw [getLast_snoc hl]; exact h.some_idx
  · rw [getLast_snoc hl]; exact h.none_idx

theorem step_bad {l : List Tok} {r : Except Err (St F)} (hl : Spec.header pInt l = none) (h0 : l ≠ []) (h4 : l.length ≠ 4) (h8 : l.length ≠ 8)
    (hr : r = .error .valueError) : Outcome pInt pFlt bc pre l r := by
  refine Or.inr ⟨_, hr, by simp, ?_⟩
  rintro (h' | h' | ⟨h', -⟩)
  · exact h0 h'
  · exact h'.1 hl
  · exact h'.elim h4 h8

theorem tb_step (h : Inv pInt pFlt bc pre s) (l : List Tok) : Outcome pInt pFlt bc pre l (tbLine pInt pFlt bc s l) := by
  match l with
  | [] => exact step0 h
  | [_] => exact step_bad rfl (by simp) (by simp) (by simp) rfl
  | [_, _] => exact step_bad rfl (by simp) (by simp) (by simp) rfl
  | [a, b, c] => exact step3 h a b c
  | [a, b, c, d] => exact step4 h a b c d
  | [_, _, _, _, _] => exact step_bad rfl (by simp) (by simp) (by simp) rfl
  | [_, _, _, _, _, _] => exact step_bad rfl (by simp) (by simp) (by simp) rfl
  | [_, _, _, _, _, _, _] => exact step_bad rfl (by simp) (by simp) (by simp) rfl
  | [a, b, c, d, e, f, g, m] => exact step8 h a b c d e f g m
  | _ :: _ :: _ :: _ :: _ :: _ :: _ :: _ :: _ :: rest =>
    exact step_bad rfl (by simp) (by simp only [List.length_cons]; omega) (by simp only [List.length_cons]; omega) rfl

/-- Outcome of the loop. -/
theorem tb_loop (body : List (List Tok)) : ∀ (pre : List (List Tok)) (s : St F), Inv pInt pFlt bc pre s →
    (∃ s', readLines (tbLine pInt pFlt bc) s body = .ok s' ∧ Inv pInt pFlt bc (pre ++ body) s' ∧
      ∀ a l b, body = a ++ l :: b → Spec.LineOk pInt pFlt bc (pre ++ a) l) ∨
    (∃ e, readLines (tbLine pInt pFlt bc) s body = .error e ∧ (e = .valueError ∨ e = .indexError) ∧
      ∃ a l b, body = a ++ l :: b ∧ ¬ Spec.LineOk pInt pFlt bc (pre ++ a) l) := by
  induction body with
  | nil =>
    intro pre s h
    refine Or.inl ⟨s, rfl, by simpa using h, ?_⟩
    intro a l b hab; simp at hab
  | cons l ls ih =>
    intro pre s h
    have hstep : readLines (tbLine pInt pFlt bc) s (l :: ls) =
        (tbLine pInt pFlt bc s l).bind fun s' => readLines (tbLine pInt pFlt bc) s' ls := rfl
    rcases tb_step h l with ⟨s', hs', hi, hok⟩ | ⟨e, he, hee, hbad⟩
    · rw [hstep, hs']
      change (∃ s'', readLines (tbLine pInt pFlt bc) s' ls = _ ∧ _) ∨ (∃ e, readLines (tbLine pInt pFlt bc) s' ls = _ ∧ _)
      rcases ih _ _ hi with ⟨s'', h1, h2, h3⟩ | ⟨e, h1, h2, a, x, b, h3, h4⟩
      · refine Or.inl ⟨s'', h1, by simpa using h2, ?_⟩
        intro a x b hab
        cases a with
        | nil =>
          simp only [List.nil_append, List.cons.injEq] at hab
          rw [List.append_nil, ← hab.1]; exact hok
        | cons y a =>
          simp only [List.cons_append, List.cons.injEq] at hab
          have := h3 a x b hab.2
          rw [hab.1] at this
          simpa using this
      · exact Or.inr ⟨e, h1, h2, l :: a, x, b, by rw [h3]; rfl, by simpa using h4⟩
    · rw [hstep, he]
      exact Or.inr ⟨e, rfl, hee, [], l, ls, rfl, by simpa using hbad⟩

end TB.Fmt
