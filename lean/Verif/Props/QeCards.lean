import Mathlib.Data.List.Dedup
import Mathlib.Tactic.FinCases
import Mathlib.Tactic.NormNum
import Verif.Model.QeCards
import Verif.Spec.Cards

/-!
# C132: the texts written for Quantum Espresso and Wannier90, read back as tables
-/

namespace TB.PropsCards
open TB TB.Cards TB.Spec.Cards

/-! ## Splitting -/

theorem splitAt_none {c : Char} : ∀ {a : List Char}, c ∉ a → splitAt c a = [a]
  | [], _ => rfl
  | x :: a, h => by
    have hx : x ≠ c := fun e => h (by simp [e])
    have ha : c ∉ a := fun e => h (by simp [e])
    rw [splitAt, if_neg hx, splitAt_none ha]

theorem splitAt_sep {c : Char} : ∀ {a : List Char} (b : List Char), c ∉ a → splitAt c (a ++ c :: b) = a :: splitAt c b
  | [], b, _ => by rw [List.nil_append, splitAt, if_pos rfl]
  | x :: a, b, h => by
    have hx : x ≠ c := fun e => h (by simp [e])
    have ha : c ∉ a := fun e => h (by simp [e])
    rw [List.cons_append, splitAt, if_neg hx, splitAt_sep b ha]

theorem splitAt_ne_nil (c : Char) (a : List Char) : splitAt c a ≠ [] := by
  cases a with
  | nil => simp [splitAt]
  | cons x a =>
    rw [splitAt]
    by_cases hx : x = c
    · rw [if_pos hx]
      simp
    · rw [if_neg hx]
      cases splitAt c a <;> simp

theorem splitAt_last (c : Char) : ∀ a : List Char, splitAt c (a ++ [c]) = splitAt c a ++ [[]]
  | [] => by simp [splitAt]
  | x :: a => by
    rw [List.cons_append, splitAt, splitAt, splitAt_last c a]
    by_cases hx : x = c
    · rw [if_pos hx, if_pos hx]
      rfl
    · rw [if_neg hx, if_neg hx]
      cases h : splitAt c a with
      | nil => exact absurd h (splitAt_ne_nil c a)
      | cons w ws => rfl

theorem words_one {w : List Char} (h : Word w) : words w = [w] := by
  rw [words, splitAt_none h.2.1]
  simp [h.1]

theorem words_cons {w : List Char} (h : Word w) (r : List Char) : words (w ++ ' ' :: r) = w :: words r := by
  rw [words, splitAt_sep r h.2.1, List.filter_cons_of_pos (by simpa using h.1)]
  rfl

theorem words_blank (r : List Char) : words (' ' :: r) = words r := by
  rw [words, splitAt, if_pos rfl, List.filter_cons_of_neg (by simp)]
  rfl

theorem table_line {l : List Char} (hl : '\n' ∉ l) (hw : words l ≠ []) (t : List Char) : table (l ++ '\n' :: t) = words l :: table t := by
  rw [table, splitAt_sep t hl, List.map_cons, List.filter_cons_of_pos (by simpa using hw)]
  rfl

theorem table_empty_line (t : List Char) : table ('\n' :: t) = table t := by
  rw [table, splitAt, if_pos rfl, List.map_cons, List.filter_cons_of_neg (by simp [words, splitAt])]
  rfl

theorem table_one {l : List Char} (hl : '\n' ∉ l) (hw : words l ≠ []) : table l = [words l] := by
  rw [table, splitAt_none hl]
  simp [hw]

theorem table_last (t : List Char) : table (t ++ ['\n']) = table t := by
  rw [table, splitAt_last, List.map_append, List.filter_append]
  simp [table, words, splitAt]

theorem table_nil : table [] = [] := by
  simp [table, words, splitAt]

/-- A line with given words. -/
def IsLine (l : List Char) (ws : List (List Char)) : Prop := '\n' ∉ l ∧ words l = ws ∧ ws ≠ []

theorem table_isLine {l : List Char} {ws : List (List Char)} (h : IsLine l ws) (t : List Char) : table (l ++ '\n' :: t) = ws :: table t := by
  rw [table_line h.1 (by rw [h.2.1]; exact h.2.2), h.2.1]

theorem isLine_one {w : List Char} (h : Word w) : IsLine w [w] := ⟨h.2.2, words_one h, by simp⟩

theorem isLine_cons {w r : List Char} {ws : List (List Char)} (h : Word w) (hr : IsLine r ws) : IsLine (w ++ ' ' :: r) (w :: ws) := by
  refine ⟨?_, by rw [words_cons h, hr.2.1], by simp⟩
  intro hm
  rcases List.mem_append.1 hm with hm | hm
  · exact h.2.2 hm
  · rcases List.mem_cons.1 hm with hm | hm
    · exact absurd hm (by decide)
    · exact hr.1 hm

theorem isLine_blank {r : List Char} {ws : List (List Char)} (hr : IsLine r ws) : IsLine (' ' :: r) ws := by
  refine ⟨?_, by rw [words_blank, hr.2.1], hr.2.2⟩
  intro hm
  rcases List.mem_cons.1 hm with hm | hm
  · exact absurd hm (by decide)
  · exact hr.1 hm

/-- Printed numbers are words. -/
def Good (F : Fmt) : Prop := (∀ x, Word (F.num x)) ∧ ∀ z, Word (F.nat z)

/-- The printed coordinates. -/
def row (F : Fmt) (v : Fin 3 → ℝ) : List (List Char) := [F.num (v 0), F.num (v 1), F.num (v 2)]

theorem three_isLine {F : Fmt} (hF : Good F) (v : Fin 3 → ℝ) : IsLine (three F v) (row F v) := by
  have := isLine_cons (hF.1 (v 0)) (isLine_cons (hF.1 (v 1)) (isLine_one (hF.1 (v 2))))
  simpa [three, sp, row, List.append_assoc] using this

theorem three_more {F : Fmt} (hF : Good F) (v : Fin 3 → ℝ) {r : List Char} {ws : List (List Char)} (hr : IsLine r ws) :
    IsLine (three F v ++ ' ' :: r) (row F v ++ ws) := by
  have := isLine_cons (hF.1 (v 0)) (isLine_cons (hF.1 (v 1)) (isLine_cons (hF.1 (v 2)) hr))
  simpa [three, sp, row, List.append_assoc] using this

theorem foldl_lines {α : Type} (f : α → List Char) (l : List α) (t : List Char) :
    l.foldl (fun t p => t ++ f p) t = t ++ (l.map f).flatten := by
  induction l generalizing t with
  | nil => simp
  | cons a l ih => rw [List.foldl_cons, ih]; simp

theorem table_rows {α : Type} (f : α → List Char) (g : α → List (List Char)) (h : ∀ a, IsLine (f a) (g a)) (l : List α) (r : List Char) :
    table ((l.map fun a => f a ++ nl).flatten ++ r) = l.map g ++ table r := by
  induction l with
  | nil => rfl
  | cons a l ih =>
    have : ((a :: l).map fun a => f a ++ nl).flatten ++ r = f a ++ '\n' :: ((l.map fun a => f a ++ nl).flatten ++ r) := by
      simp [nl, List.append_assoc]
    rw [this, table_isLine (h a), ih]
    rfl

theorem word_lit {w : List Char} (h : w ≠ [] ∧ ' ' ∉ w ∧ '\n' ∉ w) : Word w := h

theorem isLine_two {a b : List Char} (ha : a ≠ [] ∧ ' ' ∉ a ∧ '\n' ∉ a) (hb : b ≠ [] ∧ ' ' ∉ b ∧ '\n' ∉ b) : IsLine (a ++ ' ' :: b) [a, b] :=
  isLine_cons ha (isLine_one hb)

theorem word_one : Word ['1'] := ⟨by decide, by decide, by decide⟩

/-! ## The k-points -/

/-- **C132.** `k_points`: the header with the unit, the number of points, and one line per point with its coordinates and weight 1. -/
theorem C132_k_points (F : Fmt) (hF : Good F) (points : List (Fin 3 → ℝ)) (unit : Text) (hu : ' ' ∉ unit ∧ '\n' ∉ unit) :
    table (kPoints F points unit) = ["K_POINTS".toList, '{' :: unit ++ ['}']] :: [F.nat points.length] ::
      points.map fun p => [F.num (p 0), F.num (p 1), F.num (p 2), ['1']] := by
  have hhead : IsLine ("K_POINTS {".toList ++ unit ++ ['}']) ["K_POINTS".toList, '{' :: unit ++ ['}']] := by
    have hw : Word ('{' :: unit ++ ['}']) := by
      refine ⟨by simp, ?_, ?_⟩
      · simp [hu.1]
      · simp [hu.2]
    have := isLine_cons (word_lit (w := "K_POINTS".toList) (by decide)) (isLine_one hw)
    simpa using this
  have e : kPoints F points unit = ("K_POINTS {".toList ++ unit ++ ['}']) ++ '\n' :: (F.nat points.length ++ '\n' ::
      ((points.map fun p => (three F p ++ ' ' :: ['1']) ++ nl).flatten ++ [])) := by
    rw [kPoints, foldl_lines]
    simp [nl, sp, List.append_assoc]
  rw [e, table_isLine hhead, table_isLine (isLine_one (hF.2 _)),
    table_rows _ (fun p => row F p ++ [['1']]) (fun p => three_more hF p (isLine_one word_one)), table_nil, List.append_nil]
  rfl

/-- **C132.** `str(KPath)`: the same with twice the coordinates (units of 2π/a). -/
theorem C132_kpath_str (F : Fmt) (hF : Good F) (path : List (Fin 3 → ℝ)) :
    table (kPathStr F path) = ["K_POINTS".toList, "{tpiba_b}".toList] :: [F.nat path.length] ::
      path.map fun p => [F.num (p 0 * 2), F.num (p 1 * 2), F.num (p 2 * 2), ['1']] := by
  have hhead : IsLine "K_POINTS {tpiba_b}".toList ["K_POINTS".toList, "{tpiba_b}".toList] := by
    have := isLine_two (a := "K_POINTS".toList) (b := "{tpiba_b}".toList) (by decide) (by decide)
    simpa using this
  have e : kPathStr F path = "K_POINTS {tpiba_b}".toList ++ '\n' :: (F.nat path.length ++ '\n' ::
      ((path.map fun p => (three F (fun i => p i * 2) ++ ' ' :: ['1']) ++ nl).flatten ++ [])) := by
    rw [kPathStr, foldl_lines]
    simp [nl, sp, List.append_assoc]
  rw [e, table_isLine hhead, table_isLine (isLine_one (hF.2 _)),
    table_rows (fun p : Fin 3 → ℝ => three F (fun i => p i * 2) ++ ' ' :: ['1']) (fun p => row F (fun i => p i * 2) ++ [['1']])
      (fun p => three_more hF _ (isLine_one word_one)), table_nil, List.append_nil]
  rfl

/-- **C132.** `k_grid`: missing sizes are the first one; no shift. -/
theorem C132_k_grid (F : Fmt) (hF : Good F) (size : ℤ) (size2 size3 : Option ℤ) :
    table (kGrid F size size2 size3) = [["K_POINTS".toList, "(automatic)".toList],
      [F.nat size, F.nat (size2.getD size), F.nat (size3.getD size), ['0'], ['0'], ['0']]] := by
  have hhead : IsLine "K_POINTS (automatic)".toList ["K_POINTS".toList, "(automatic)".toList] := by
    have := isLine_two (a := "K_POINTS".toList) (b := "(automatic)".toList) (by decide) (by decide)
    simpa using this
  have h0 : IsLine "0 0 0".toList [['0'], ['0'], ['0']] := by
    have := isLine_cons (word_lit (w := ['0']) (by decide)) (isLine_two (a := ['0']) (b := ['0']) (by decide) (by decide))
    simpa using this
  have hl := isLine_cons (hF.2 size) (isLine_cons (hF.2 (size2.getD size)) (isLine_cons (hF.2 (size3.getD size)) h0))
  have e : kGrid F size size2 size3 = "K_POINTS (automatic)".toList ++ '\n' :: (F.nat size ++ ' ' :: (F.nat (size2.getD size) ++ ' ' ::
      (F.nat (size3.getD size) ++ ' ' :: "0 0 0".toList))) := by
    have a1 : "K_POINTS (automatic)\n".toList = "K_POINTS (automatic)".toList ++ ['\n'] := by decide
    have a2 : " 0 0 0".toList = ' ' :: "0 0 0".toList := by decide
    unfold kGrid
    rw [a1, a2]
    generalize "K_POINTS (automatic)".toList = u
    generalize "0 0 0".toList = v
    simp only [sp, List.append_assoc, List.cons_append, List.nil_append]
  rw [e, table_isLine hhead, table_one hl.1 (by rw [hl.2.1]; exact hl.2.2), hl.2.1]

/-- **C132.** `k_points_wannier`: one line per point between `begin kpoints` and `end kpoints`. -/
theorem C132_k_points_wannier (F : Fmt) (hF : Good F) (points : List (Fin 3 → ℝ)) :
    table (kPointsWannier F points) = ["begin".toList, "kpoints".toList] ::
      (points.map fun p => [F.num (p 0), F.num (p 1), F.num (p 2)]) ++ [["end".toList, "kpoints".toList]] := by
  have hhead : IsLine "begin kpoints".toList ["begin".toList, "kpoints".toList] := by
    have := isLine_two (a := "begin".toList) (b := "kpoints".toList) (by decide) (by decide)
    simpa using this
  have hend : IsLine "end kpoints".toList ["end".toList, "kpoints".toList] := by
    have := isLine_two (a := "end".toList) (b := "kpoints".toList) (by decide) (by decide)
    simpa using this
  have e : kPointsWannier F points = "begin kpoints".toList ++ '\n' :: ((points.map fun p => three F p ++ nl).flatten ++ "end kpoints".toList) := by
    rw [kPointsWannier, foldl_lines]
    simp
  rw [e, table_isLine hhead, table_rows _ (row F) (three_isLine hF), table_one hend.1 (by rw [hend.2.1]; exact hend.2.2), hend.2.1]
  rfl

/-- **C132.** `k_path_wannier`: one line per pair of successive marks, with names and crystal coordinates `A_norm.T @ k` of both. -/
theorem C132_k_path_wannier (F : Fmt) (hF : Good F) (A : Mat ℝ 3) (marks : List (Text × (Fin 3 → ℝ))) (hn : ∀ m ∈ marks, Word m.1) :
    table (kPathWannier F A marks) = ["begin".toList, "kpoint_path".toList] ::
      ((marks.zip marks.tail).map fun m => [m.1.1, F.num (A.transpose.mulVec m.1.2 0), F.num (A.transpose.mulVec m.1.2 1),
        F.num (A.transpose.mulVec m.1.2 2), m.2.1, F.num (A.transpose.mulVec m.2.2 0), F.num (A.transpose.mulVec m.2.2 1),
        F.num (A.transpose.mulVec m.2.2 2)]) ++ [["end".toList, "kpoint_path".toList]] := by
  have hhead : IsLine "begin kpoint_path".toList ["begin".toList, "kpoint_path".toList] := by
    have := isLine_two (a := "begin".toList) (b := "kpoint_path".toList) (by decide) (by decide)
    simpa using this
  have hend : IsLine "end kpoint_path".toList ["end".toList, "kpoint_path".toList] := by
    have := isLine_two (a := "end".toList) (b := "kpoint_path".toList) (by decide) (by decide)
    simpa using this
  have key : ∀ (l : List (Text × (Fin 3 → ℝ))) (t : Text) (m : Text × (Fin 3 → ℝ)),
      kPathLoop F A l t (some (m.1 ++ sp ++ three F (A.transpose.mulVec m.2))) = t ++ (((m :: l).zip l).map fun q =>
        (q.1.1 ++ ' ' :: (three F (A.transpose.mulVec q.1.2) ++ ' ' :: (q.2.1 ++ ' ' :: three F (A.transpose.mulVec q.2.2)))) ++ nl).flatten := by
    intro l
    induction l with
    | nil => intro t m; simp [kPathLoop]
    | cons a l ih =>
      intro t m
      obtain ⟨name, k⟩ := a
      rw [kPathLoop]
      rw [ih _ (name, k)]
      simp [sp, nl, List.append_assoc]
  have hrows : ∀ (ms : List (Text × (Fin 3 → ℝ))) (r : Text), (∀ m ∈ ms, Word m.1) →
      table ((((ms.zip ms.tail)).map fun q => (q.1.1 ++ ' ' :: (three F (A.transpose.mulVec q.1.2) ++ ' ' ::
        (q.2.1 ++ ' ' :: three F (A.transpose.mulVec q.2.2)))) ++ nl).flatten ++ r) =
      ((ms.zip ms.tail).map fun q => q.1.1 :: (row F (A.transpose.mulVec q.1.2) ++ q.2.1 :: row F (A.transpose.mulVec q.2.2))) ++ table r := by
    intro ms r hms
    have gen : ∀ L : List ((Text × (Fin 3 → ℝ)) × (Text × (Fin 3 → ℝ))), (∀ q ∈ L, Word q.1.1 ∧ Word q.2.1) →
        table ((L.map fun q => (q.1.1 ++ ' ' :: (three F (A.transpose.mulVec q.1.2) ++ ' ' ::
          (q.2.1 ++ ' ' :: three F (A.transpose.mulVec q.2.2)))) ++ nl).flatten ++ r) =
        (L.map fun q => q.1.1 :: (row F (A.transpose.mulVec q.1.2) ++ q.2.1 :: row F (A.transpose.mulVec q.2.2))) ++ table r := by
      intro L hL
      induction L with
      | nil => rfl
      | cons q L ih =>
        have hq := hL q (by simp)
        have hline := isLine_cons hq.1 (three_more hF (A.transpose.mulVec q.1.2) (isLine_cons hq.2 (three_isLine hF (A.transpose.mulVec q.2.2))))
        rw [List.map_cons, List.flatten_cons, List.map_cons, List.cons_append, ← ih fun x hx => hL x (by simp [hx]), ← table_isLine hline]
        congr 1
        simp [nl, List.append_assoc]
    apply gen
    rintro ⟨a, b⟩ hq
    exact ⟨hms a (List.of_mem_zip hq).1, hms b (List.mem_of_mem_tail (List.of_mem_zip hq).2)⟩
  have e : kPathWannier F A marks = "begin kpoint_path".toList ++ '\n' :: (((marks.zip marks.tail).map fun q =>
      (q.1.1 ++ ' ' :: (three F (A.transpose.mulVec q.1.2) ++ ' ' :: (q.2.1 ++ ' ' :: three F (A.transpose.mulVec q.2.2)))) ++ nl).flatten ++
      "end kpoint_path".toList) := by
    cases marks with
    | nil => simp [kPathWannier, kPathLoop]
    | cons m l =>
      obtain ⟨name, k⟩ := m
      rw [kPathWannier, kPathLoop]
      rw [key l _ (name, k)]
      simp [List.append_assoc]
  rw [e, table_isLine hhead, hrows marks _ hn, table_one hend.1 (by rw [hend.2.1]; exact hend.2.2), hend.2.1]
  rfl

/-! ## The crystal -/

theorem atomLines_ok (F : Fmt) (pre : Text) (l : List (List ℝ × Text)) (t : Text) (h : ∀ a ∈ l, a.1.length = 3) :
    atomLines F pre l t = .ok (t ++ (l.map fun a => (pre ++ (a.2 ++ ' ' :: three F (fun i => a.1.getD i.val 0))) ++ nl).flatten) := by
  induction l generalizing t with
  | nil => simp [atomLines]
  | cons a l ih =>
    obtain ⟨b, ty⟩ := a
    rw [atomLines, if_neg (not_not.2 (h _ List.mem_cons_self)), ih _ fun x hx => h x (by simp [hx])]
    simp [sp, List.append_assoc]

theorem atomLines_err (F : Fmt) (pre : Text) (l : List (List ℝ × Text)) (t : Text) (h : ∃ a ∈ l, a.1.length ≠ 3) :
    atomLines F pre l t = .error .assertionError := by
  induction l generalizing t with
  | nil => simp at h
  | cons a l ih =>
    obtain ⟨b, ty⟩ := a
    rw [atomLines]
    by_cases hb : b.length = 3
    · rw [if_neg (not_not.2 hb)]
      apply ih
      obtain ⟨x, hx, hx3⟩ := h
      rcases List.mem_cons.1 hx with rfl | hx
      · exact absurd hb hx3
      · exact ⟨x, hx, hx3⟩
    · rw [if_pos hb]

theorem speciesLines_ok (F : Fmt) (mass : Text → Option ℝ) (pp : Text → Option Text) (l : List Text) (t : Text)
    (m : Text → ℝ) (p : Text → Text) (h : ∀ s ∈ l, mass s = some (m s) ∧ pp s = some (p s)) :
    speciesLines F mass pp l t = .ok (t ++ (l.map fun s => (' ' :: (s ++ ' ' :: (F.num (m s) ++ ' ' :: p s))) ++ nl).flatten) := by
  induction l generalizing t with
  | nil => simp [speciesLines]
  | cons s l ih =>
    rw [speciesLines, (h s (by simp)).1, (h s (by simp)).2]
    simp only
    rw [ih _ fun x hx => h x (by simp [hx])]
    simp [sp, List.append_assoc]

theorem speciesLines_err (F : Fmt) (mass : Text → Option ℝ) (pp : Text → Option Text) (l : List Text) (t : Text)
    (h : ∃ s ∈ l, mass s = none ∨ pp s = none) : speciesLines F mass pp l t = .error .keyError := by
  induction l generalizing t with
  | nil => simp at h
  | cons s l ih =>
    obtain ⟨x, hx, hn⟩ := h
    rw [speciesLines]
    cases hm : mass s with
    | none => rfl
    | some m =>
      cases hp : pp s with
      | none => rfl
      | some p =>
        simp only
        apply ih
        rcases List.mem_cons.1 hx with rfl | hx
        · rw [hm, hp] at hn
          simp at hn
        · exact ⟨x, hx, hn⟩

theorem table_mem_rows {α : Type} (f : α → List Char) (g : α → List (List Char)) (l : List α) (h : ∀ a ∈ l, IsLine (f a) (g a)) (r : List Char) :
    table ((l.map fun a => f a ++ nl).flatten ++ r) = l.map g ++ table r := by
  induction l with
  | nil => rfl
  | cons a l ih =>
    have : ((a :: l).map fun a => f a ++ nl).flatten ++ r = f a ++ '\n' :: ((l.map fun a => f a ++ nl).flatten ++ r) := by
      simp [nl, List.append_assoc]
    rw [this, table_isLine (h a (by simp)), ih fun b hb => h b (by simp [hb])]
    rfl

theorem dropLast_lines (ls : List Text) (t : Text) : table ((t ++ ['\n']) ++ (ls.map (· ++ nl)).flatten).dropLast =
    table ((t ++ ['\n']) ++ (ls.map (· ++ nl)).flatten) := by
  rcases List.eq_nil_or_concat ls with rfl | ⟨a, b, rfl⟩
  · simp only [List.map_nil, List.flatten_nil, List.append_nil, List.dropLast_concat]
    rw [table_last]
  · have : (t ++ ['\n']) ++ ((a.concat b).map (· ++ nl)).flatten = ((t ++ ['\n']) ++ (a.map (· ++ nl)).flatten ++ b) ++ ['\n'] := by
      simp [nl, List.append_assoc]
    rw [this, List.dropLast_concat, table_last]

/-- **C132.** `_crystal`: the lattice vectors (columns of `A`) one per line, every type exactly once with its mass and pseudo potential, and
the atoms in order.  So there are `ntyp` lines of species and `nat` lines of positions. -/
theorem C132_crystal (F : Fmt) (hF : Good F) (mass : Text → Option ℝ) (pp : Text → Option Text) (order : List Text) (c : Cell)
    (hu : Word c.unit) (hty : ∀ t ∈ c.types, Word t) (hlen : c.types.length = c.basis.length) (hb : ∀ b ∈ c.basis, b.length = 3)
    (hord : order.Nodup ∧ ∀ t, t ∈ order ↔ t ∈ c.types) (m : Text → ℝ) (p : Text → Text)
    (hmp : ∀ s ∈ c.types, mass s = some (m s) ∧ pp s = some (p s) ∧ Word (p s)) :
    ∃ t, crystal F mass pp order c = .ok t ∧
      table t = [["CELL_PARAMETERS".toList, c.unit]] ++
        [[F.num (c.A 0 0), F.num (c.A 1 0), F.num (c.A 2 0)], [F.num (c.A 0 1), F.num (c.A 1 1), F.num (c.A 2 1)],
          [F.num (c.A 0 2), F.num (c.A 1 2), F.num (c.A 2 2)]] ++
        [["ATOMIC_SPECIES".toList]] ++ order.map (fun s => [s, F.num (m s), p s]) ++
        [["ATOMIC_POSITIONS".toList, "crystal".toList]] ++
        (c.basis.zip c.types).map (fun a => [a.2, F.num (a.1.getD 0 0), F.num (a.1.getD 1 0), F.num (a.1.getD 2 0)]) ∧
      order.length = c.types.dedup.length ∧ (c.basis.zip c.types).length = c.basis.length := by
  have hz : ∀ a ∈ c.basis.zip c.types, a.1.length = 3 := by
    rintro ⟨a, b⟩ h
    exact hb a (List.of_mem_zip h).1
  have hzt : ∀ a ∈ c.basis.zip c.types, Word a.2 := by
    rintro ⟨a, b⟩ h
    exact hty b (List.of_mem_zip h).2
  have hcomp : crystal F mass pp order c = .ok ((("CELL_PARAMETERS ".toList ++ c.unit ++ nl ++ cellRows F c.A ++ "ATOMIC_SPECIES\n".toList ++
      (order.map fun s => (' ' :: (s ++ ' ' :: (F.num (m s) ++ ' ' :: p s))) ++ nl).flatten) ++ "ATOMIC_POSITIONS crystal\n".toList) ++
      ((c.basis.zip c.types).map fun a => (sp ++ (a.2 ++ ' ' :: three F (fun i => a.1.getD i.val 0))) ++ nl).flatten).dropLast := by
    unfold crystal
    rw [speciesLines_ok F mass pp order _ m p fun s hs => ⟨(hmp s ((hord.2 s).1 hs)).1, (hmp s ((hord.2 s).1 hs)).2.1⟩]
    simp only [bind, Except.bind]
    rw [atomLines_ok F sp _ _ hz]
    rfl
  refine ⟨_, hcomp, ?_, ?_, ?_⟩
  · have e1 : "ATOMIC_POSITIONS crystal\n".toList = "ATOMIC_POSITIONS crystal".toList ++ ['\n'] := by decide
    have e2 : (c.basis.zip c.types).map (fun a => (sp ++ (a.2 ++ ' ' :: three F (fun i => a.1.getD i.val 0))) ++ nl) =
        ((c.basis.zip c.types).map fun a => sp ++ (a.2 ++ ' ' :: three F (fun i => a.1.getD i.val 0))).map (· ++ nl) := by
      rw [List.map_map]
      rfl
    rw [e1, ← List.append_assoc _ "ATOMIC_POSITIONS crystal".toList, e2, dropLast_lines, ← e2]
    have h1 : IsLine ("CELL_PARAMETERS ".toList ++ c.unit) ["CELL_PARAMETERS".toList, c.unit] := by
      have := isLine_cons (word_lit (w := "CELL_PARAMETERS".toList) (by decide)) (isLine_one hu)
      simpa using this
    have h2 : IsLine "ATOMIC_SPECIES".toList ["ATOMIC_SPECIES".toList] := isLine_one (by decide : _ ∧ _ ∧ _)
    have h3 : IsLine "ATOMIC_POSITIONS crystal".toList ["ATOMIC_POSITIONS".toList, "crystal".toList] := by
      have := isLine_two (a := "ATOMIC_POSITIONS".toList) (b := "crystal".toList) (by decide) (by decide)
      simpa using this
    have e3 : ∀ X Y : Text, "CELL_PARAMETERS ".toList ++ c.unit ++ nl ++ cellRows F c.A ++ "ATOMIC_SPECIES\n".toList ++ X ++
        "ATOMIC_POSITIONS crystal".toList ++ ['\n'] ++ Y = ("CELL_PARAMETERS ".toList ++ c.unit) ++ '\n' :: (three F (fun i => c.A i 0) ++ '\n' ::
          (three F (fun i => c.A i 1) ++ '\n' :: (three F (fun i => c.A i 2) ++ '\n' :: ("ATOMIC_SPECIES".toList ++ '\n' ::
            (X ++ ("ATOMIC_POSITIONS crystal".toList ++ '\n' :: (Y ++ []))))))) := by
      intro X Y
      simp [cellRows, nl, List.append_assoc]
    rw [e3, table_isLine h1, table_isLine (three_isLine hF _), table_isLine (three_isLine hF _), table_isLine (three_isLine hF _), table_isLine h2,
      table_mem_rows _ (fun s => [s, F.num (m s), p s]) order (fun s hs => ?_), table_isLine h3,
      table_mem_rows _ (fun a => a.2 :: row F (fun i => a.1.getD i.val 0)) _ (fun a ha => ?_), table_nil]
    · simp [row]
    · exact isLine_blank (isLine_cons (hzt a ha) (three_isLine hF _))
    · have hs' := (hord.2 s).1 hs
      exact isLine_blank (isLine_cons (hty s hs') (isLine_cons (hF.1 _) (isLine_one (hmp s hs').2.2)))
  · exact List.Perm.length_eq ((List.perm_ext_iff_of_nodup hord.1 (List.nodup_dedup _)).2 fun t => by rw [hord.2, List.mem_dedup])
  · rw [List.length_zip, hlen, min_self]

/-- **C132.** `_crystal` raises `KeyError` for a type without mass or pseudo potential, otherwise `AssertionError` for an atom without three
coordinates. -/
theorem C132_crystal_errors (F : Fmt) (mass : Text → Option ℝ) (pp : Text → Option Text) (order : List Text) (c : Cell) :
    ((∃ s ∈ order, mass s = none ∨ pp s = none) → crystal F mass pp order c = .error .keyError) ∧
    ((∀ s ∈ order, (mass s).isSome ∧ (pp s).isSome) → (∃ a ∈ c.basis.zip c.types, a.1.length ≠ 3) →
      crystal F mass pp order c = .error .assertionError ∧ crystalWannier F c = .error .assertionError) := by
  constructor
  · intro h
    unfold crystal
    rw [speciesLines_err F mass pp order _ h]
    rfl
  · intro h hz
    refine ⟨?_, ?_⟩
    · unfold crystal
      rw [speciesLines_ok F mass pp order _ (fun s => (mass s).getD 0) (fun s => (pp s).getD []) fun s hs => by
        obtain ⟨h1, h2⟩ := h s hs
        obtain ⟨x, hx⟩ := Option.isSome_iff_exists.1 h1
        obtain ⟨y, hy⟩ := Option.isSome_iff_exists.1 h2
        rw [hx, hy]
        exact ⟨rfl, rfl⟩]
      simp only [bind, Except.bind]
      rw [atomLines_err F sp _ _ hz]
    · unfold crystalWannier
      rw [atomLines_err F [] _ _ hz]
      rfl

/-- **C132.** `crystal_wannier`: the same lattice and positions. -/
theorem C132_crystal_wannier (F : Fmt) (hF : Good F) (c : Cell) (hu : Word c.unit) (hty : ∀ t ∈ c.types, Word t) (hb : ∀ b ∈ c.basis, b.length = 3) :
    ∃ t, crystalWannier F c = .ok t ∧
      table t = [["begin".toList, "unit_cell_cart".toList], [c.unit]] ++
        [[F.num (c.A 0 0), F.num (c.A 1 0), F.num (c.A 2 0)], [F.num (c.A 0 1), F.num (c.A 1 1), F.num (c.A 2 1)],
          [F.num (c.A 0 2), F.num (c.A 1 2), F.num (c.A 2 2)]] ++
        [["end".toList, "unit_cell_cart".toList], ["begin".toList, "atoms_frac".toList]] ++
        (c.basis.zip c.types).map (fun a => [a.2, F.num (a.1.getD 0 0), F.num (a.1.getD 1 0), F.num (a.1.getD 2 0)]) ++
        [["end".toList, "atoms_frac".toList]] := by
  have hz : ∀ a ∈ c.basis.zip c.types, a.1.length = 3 := by
    rintro ⟨a, b⟩ h
    exact hb a (List.of_mem_zip h).1
  have hzt : ∀ a ∈ c.basis.zip c.types, Word a.2 := by
    rintro ⟨a, b⟩ h
    exact hty b (List.of_mem_zip h).2
  have hcomp : crystalWannier F c = .ok ((("begin unit_cell_cart\n".toList ++ c.unit ++ nl ++ cellRows F c.A ++
      "end unit_cell_cart\n\nbegin atoms_frac\n".toList) ++
      ((c.basis.zip c.types).map fun a => ([] ++ (a.2 ++ ' ' :: three F (fun i => a.1.getD i.val 0))) ++ nl).flatten) ++ "end atoms_frac".toList) := by
    unfold crystalWannier
    rw [atomLines_ok F [] _ _ hz]
    rfl
  refine ⟨_, hcomp, ?_⟩
  · have h1 : IsLine "begin unit_cell_cart".toList ["begin".toList, "unit_cell_cart".toList] := by
      have := isLine_two (a := "begin".toList) (b := "unit_cell_cart".toList) (by decide) (by decide)
      simpa using this
    have h2 : IsLine "end unit_cell_cart".toList ["end".toList, "unit_cell_cart".toList] := by
      have := isLine_two (a := "end".toList) (b := "unit_cell_cart".toList) (by decide) (by decide)
      simpa using this
    have h3 : IsLine "begin atoms_frac".toList ["begin".toList, "atoms_frac".toList] := by
      have := isLine_two (a := "begin".toList) (b := "atoms_frac".toList) (by decide) (by decide)
      simpa using this
    have h4 : IsLine "end atoms_frac".toList ["end".toList, "atoms_frac".toList] := by
      have := isLine_two (a := "end".toList) (b := "atoms_frac".toList) (by decide) (by decide)
      simpa using this
    have e3 : ∀ X : Text, "begin unit_cell_cart\n".toList ++ c.unit ++ nl ++ cellRows F c.A ++ "end unit_cell_cart\n\nbegin atoms_frac\n".toList ++ X ++
        "end atoms_frac".toList = "begin unit_cell_cart".toList ++ '\n' :: (c.unit ++ '\n' :: (three F (fun i => c.A i 0) ++ '\n' ::
          (three F (fun i => c.A i 1) ++ '\n' :: (three F (fun i => c.A i 2) ++ '\n' :: ("end unit_cell_cart".toList ++ '\n' :: '\n' ::
            ("begin atoms_frac".toList ++ '\n' :: (X ++ "end atoms_frac".toList))))))) := by
      intro X
      simp [cellRows, nl, List.append_assoc]
    rw [e3, table_isLine h1, table_isLine (isLine_one hu), table_isLine (three_isLine hF _), table_isLine (three_isLine hF _),
      table_isLine (three_isLine hF _), table_isLine h2, table_empty_line, table_isLine h3,
      table_mem_rows _ (fun a => a.2 :: row F (fun i => a.1.getD i.val 0)) _ (fun a ha => ?_), table_one h4.1 (by rw [h4.2.1]; exact h4.2.2), h4.2.1]
    · simp [row]
    · exact isLine_cons (hzt a ha) (three_isLine hF _)

/-! ## Concrete texts -/

/-- Prints zero as `0`, all else as `x`. -/
noncomputable def exFmt : Fmt := ⟨fun x => open Classical in if x = 0 then ['0'] else ['x'], fun z => if z = 0 then ['0'] else ['n']⟩

theorem exFmt_good : Good exFmt := by
  constructor
  · intro x
    show Word (open Classical in if x = 0 then ['0'] else ['x'])
    by_cases hx : x = 0
    · rw [if_pos hx]
      exact ⟨by decide, by decide, by decide⟩
    · rw [if_neg hx]
      exact ⟨by decide, by decide, by decide⟩
  · intro z
    show Word (if z = 0 then ['0'] else ['n'])
    by_cases hz : z = 0
    · rw [if_pos hz]
      exact ⟨by decide, by decide, by decide⟩
    · rw [if_neg hz]
      exact ⟨by decide, by decide, by decide⟩

example : (table (kPoints exFmt [fun _ => 0, fun _ => 1] "crystal".toList)).length = 4 := by
  rw [C132_k_points exFmt exFmt_good _ _ ⟨by decide, by decide⟩]
  rfl

example : (table (kPathStr exFmt [fun _ => 0, fun _ => 1, fun _ => 0])).length = 5 := by
  rw [C132_kpath_str exFmt exFmt_good]
  rfl

example : table (kGrid exFmt 4 none (some 0)) =
    [["K_POINTS".toList, "(automatic)".toList], [['n'], ['n'], ['0'], ['0'], ['0'], ['0']]] := by
  rw [C132_k_grid exFmt exFmt_good]
  rfl

example : (table (kPathWannier exFmt 1 [("G".toList, 0), ("X".toList, fun _ => 1), ("L".toList, 0)])).length = 4 := by
  rw [C132_k_path_wannier exFmt exFmt_good _ _ (by
    intro m hm
    simp only [List.mem_cons, List.not_mem_nil, or_false] at hm
    rcases hm with rfl | rfl | rfl <;> exact ⟨by decide, by decide, by decide⟩)]
  rfl

example : (table (kPointsWannier exFmt [0])).length = 3 := by
  rw [C132_k_points_wannier exFmt exFmt_good]
  rfl

/-- Two atoms of one type. -/
noncomputable def exCell : Cell := ⟨"bohr".toList, 1, [[0, 0, 0], [1, 1, 1]], ["Si".toList, "Si".toList]⟩

/-- One line of species, two of positions. -/
example : ∃ t, crystal exFmt (fun _ => some 28) (fun _ => some "Si.upf".toList) ["Si".toList] exCell = .ok t ∧ (table t).length = 9 := by
  obtain ⟨t, h, ht, _⟩ := C132_crystal exFmt exFmt_good (fun _ => some 28) (fun _ => some "Si.upf".toList) ["Si".toList] exCell
    ⟨by decide, by decide, by decide⟩
    (by
      intro t ht
      simp only [exCell, List.mem_cons, List.not_mem_nil, or_false] at ht
      rcases ht with rfl | rfl <;> exact ⟨by decide, by decide, by decide⟩)
    rfl (by simp [exCell]) (by simp [exCell]) (fun _ => 28) (fun _ => "Si.upf".toList)
    (fun _ _ => ⟨rfl, rfl, by decide, by decide, by decide⟩)
  refine ⟨t, h, ?_⟩
  rw [ht]
  rfl

example : ∃ t, crystalWannier exFmt exCell = .ok t ∧ (table t).length = 10 := by
  obtain ⟨t, h, ht⟩ := C132_crystal_wannier exFmt exFmt_good exCell ⟨by decide, by decide, by decide⟩
    (by
      intro t ht
      simp only [exCell, List.mem_cons, List.not_mem_nil, or_false] at ht
      rcases ht with rfl | rfl <;> exact ⟨by decide, by decide, by decide⟩) (by simp [exCell])
  refine ⟨t, h, ?_⟩
  rw [ht]
  rfl

/-- Unknown element. -/
example : crystal exFmt (fun _ => none) (fun _ => some []) ["Xx".toList] exCell = .error .keyError :=
  (C132_crystal_errors exFmt _ _ _ exCell).1 ⟨_, List.mem_cons_self, Or.inl rfl⟩

end TB.PropsCards
