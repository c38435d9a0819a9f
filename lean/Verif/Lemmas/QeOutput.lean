import Verif.Model.QeOutput
import Verif.Spec.QeOutput
import Mathlib.Data.List.TakeWhile

/-!
# Lines, words and tables of the model agree with those of the specification
-/

namespace TB.QeOutput
open TB TB.Cards TB.Spec.Cards TB.Spec.QeOutput

theorem splitBy_char (c : Char) : ∀ t : Text, splitBy (fun x => x = c) t = splitAt c t
  | [] => rfl
  | x :: t => by
    rw [splitBy, splitAt, splitBy_char c t]
    by_cases h : x = c
    · simp [h]
    · rw [if_neg (by simpa using h), if_neg h]
      cases splitAt c t <;> rfl

theorem splitBy_congr {p q : Char → Bool} : ∀ {t : Text}, (∀ c ∈ t, p c = q c) → splitBy p t = splitBy q t
  | [], _ => rfl
  | x :: t, h => by
    rw [splitBy, splitBy, splitBy_congr (t := t) fun c hc => h c (List.mem_cons_of_mem _ hc), h x List.mem_cons_self]

theorem splitBy_ne_nil (p : Char → Bool) : ∀ t : Text, splitBy p t ≠ []
  | [] => by simp [splitBy]
  | x :: t => by
    rw [splitBy]
    split_ifs
    · simp
    · split <;> simp

theorem splitBy_append {p : Char → Bool} {c : Char} (hc : p c = true) (b : Text) : ∀ a : Text, splitBy p (a ++ c :: b) = splitBy p a ++ splitBy p b
  | [] => by simp [splitBy, hc]
  | x :: a => by
    rw [List.cons_append, splitBy, splitBy, splitBy_append hc b a]
    by_cases h : p x = true
    · simp [h]
    · rw [if_neg h, if_neg h]
      cases h2 : splitBy p a with
      | nil => exact absurd h2 (splitBy_ne_nil p a)
      | cons w ws => rfl

theorem splitBy_mem {p : Char → Bool} : ∀ {t w : Text}, w ∈ splitBy p t → ∀ c ∈ w, p c = false
  | [], w, h, c, hc => by
    simp only [splitBy, List.mem_singleton] at h
    subst h
    simp at hc
  | x :: t, w, h, c, hc => by
    rw [splitBy] at h
    by_cases hx : p x = true
    · rw [if_pos hx] at h
      rcases List.mem_cons.1 h with h | h
      · subst h
        simp at hc
      · exact splitBy_mem h c hc
    · rw [if_neg hx] at h
      cases h2 : splitBy p t with
      | nil => exact absurd h2 (splitBy_ne_nil p t)
      | cons v vs =>
        rw [h2] at h
        rcases List.mem_cons.1 h with h | h
        · subst h
          rcases List.mem_cons.1 hc with h | h
          · subst h
            simpa using hx
          · exact splitBy_mem (t := t) (w := v) (by rw [h2]; exact List.mem_cons_self) c h
        · exact splitBy_mem (t := t) (by rw [h2]; exact List.mem_cons_of_mem _ h) c hc

theorem split_mem {t w : Text} (h : w ∈ split t) : ∀ c ∈ w, isSpace c = false := splitBy_mem (List.mem_filter.1 h).1

theorem split_newline (l : Text) : split (l ++ ['\n']) = split l := by
  rw [split, splitBy_append (by decide), List.filter_append]
  simp [splitBy, split]

theorem splitBy_blank : ∀ {t : Text}, '\n' ∉ t → splitBy isSpace t = splitAt ' ' (blank t)
  | [], _ => rfl
  | c :: t, h => by
    have ih := splitBy_blank (t := t) fun e => h (List.mem_cons_of_mem _ e)
    have hc : c ≠ '\n' := fun e => h (e ▸ List.mem_cons_self)
    rw [splitBy, ih]
    change _ = splitAt ' ' ((if c = '\t' ∨ c = '\r' ∨ c = '\x0b' ∨ c = '\x0c' then ' ' else c) :: blank t)
    rw [splitAt]
    by_cases h1 : c = '\t' ∨ c = '\r' ∨ c = '\x0b' ∨ c = '\x0c'
    · rw [if_pos h1, if_pos rfl, if_pos (by rcases h1 with rfl | rfl | rfl | rfl <;> decide)]
    · rw [if_neg h1]
      push Not at h1
      by_cases h2 : c = ' '
      · rw [if_pos h2, if_pos (by subst h2; decide)]
      · rw [if_neg h2, if_neg (by simp [isSpace, h1, h2, hc])]
        cases splitAt ' ' (blank t) <;> rfl

theorem split_words {l : Text} (hn : '\n' ∉ l) : split l = words (blank l) := by
  rw [split, words, splitBy_blank hn]

theorem lines_blank : ∀ t : Text, splitAt '\n' (blank t) = (splitAt '\n' t).map blank
  | [] => rfl
  | c :: t => by
    have ih := lines_blank t
    change splitAt '\n' ((if c = '\t' ∨ c = '\r' ∨ c = '\x0b' ∨ c = '\x0c' then ' ' else c) :: blank t) = _
    rw [splitAt, splitAt, ih]
    by_cases h1 : c = '\t' ∨ c = '\r' ∨ c = '\x0b' ∨ c = '\x0c'
    · have hc : c ≠ '\n' := by rcases h1 with rfl | rfl | rfl | rfl <;> decide
      rw [if_pos h1, if_neg (by decide), if_neg hc]
      cases splitAt '\n' t <;> simp [blank, h1]
    · rw [if_neg h1]
      by_cases hc : c = '\n'
      · rw [if_pos hc, if_pos hc]
        rfl
      · rw [if_neg hc, if_neg hc]
        cases splitAt '\n' t <;> simp [blank, h1]

/-! ## Lines -/

/-- Lines with their line ends, an empty last line left out. -/
def ends : List Text → List Text
  | [] => []
  | [l] => if l = [] then [] else [l]
  | l :: m :: ls => (l ++ ['\n']) :: ends (m :: ls)

theorem splitAt_ne_nil (c : Char) (t : Text) : splitAt c t ≠ [] := by
  rw [← splitBy_char]
  exact splitBy_ne_nil _ _

theorem fileLines_eq : ∀ t : Text, fileLines t = ends (splitAt '\n' t)
  | [] => rfl
  | c :: t => by
    rw [fileLines, splitAt, fileLines_eq t]
    cases h : splitAt '\n' t with
    | nil => exact absurd h (splitAt_ne_nil _ t)
    | cons w ws =>
      by_cases hc : c = '\n'
      · simp [hc, ends]
      · rw [if_neg hc, if_neg hc]
        cases ws with
        | nil =>
          by_cases hw : w = []
          · simp [ends, hw]
          · simp [ends, hw]
        | cons v vs => simp [ends]

theorem fileLines_cons (b : Text) : ∀ {h : Text}, '\n' ∉ h → fileLines (h ++ '\n' :: b) = (h ++ ['\n']) :: fileLines b
  | [], _ => by simp [fileLines]
  | c :: h, hn => by
    have hc : c ≠ '\n' := fun e => hn (e ▸ List.mem_cons_self)
    rw [List.cons_append, fileLines, if_neg hc, fileLines_cons b fun e => hn (List.mem_cons_of_mem _ e)]
    rfl

theorem mem_splitAt {c : Char} {t l : Text} (h : l ∈ splitAt c t) : c ∉ l ∧ ∀ x ∈ l, x ∈ t := by
  constructor
  · intro hc
    have := splitBy_mem (p := fun x => x = c) (by rw [splitBy_char]; exact h) c hc
    simp at this
  · induction t generalizing l with
    | nil =>
      simp only [splitAt, List.mem_singleton] at h
      subst h
      simp
    | cons y t ih =>
      rw [splitAt] at h
      by_cases hy : y = c
      · rw [if_pos hy] at h
        rcases List.mem_cons.1 h with h | h
        · subst h
          simp
        · exact fun x hx => List.mem_cons_of_mem _ (ih h x hx)
      · rw [if_neg hy] at h
        cases h2 : splitAt c t with
        | nil => exact absurd h2 (splitAt_ne_nil c t)
        | cons v vs =>
          rw [h2] at h ih
          rcases List.mem_cons.1 h with h | h
          · subst h
            intro x hx
            rcases List.mem_cons.1 hx with hx | hx
            · exact hx ▸ List.mem_cons_self
            · exact List.mem_cons_of_mem _ (ih List.mem_cons_self x hx)
          · exact fun x hx => List.mem_cons_of_mem _ (ih (List.mem_cons_of_mem _ h) x hx)

/-! ## Phrases -/

theorem contains_iff (pat : Text) : ∀ t : Text, contains pat t = true ↔ pat <:+: t
  | [] => by simp [contains, List.isPrefixOf_iff_prefix]
  | c :: t => by rw [contains, Bool.or_eq_true, List.isPrefixOf_iff_prefix, contains_iff pat t, List.infix_cons_iff]

theorem infix_newline {pat l : Text} (h0 : pat ≠ []) (hn : '\n' ∉ pat) : pat <:+: l ++ ['\n'] ↔ pat <:+: l := by
  constructor
  · rintro ⟨s, t, h⟩
    rcases List.eq_nil_or_concat t with rfl | ⟨t, x, rfl⟩
    · rw [List.append_nil] at h
      exfalso
      apply hn
      have h3 : (s ++ pat).getLast? = some '\n' := by rw [h]; simp
      rw [List.getLast?_append_of_ne_nil _ h0] at h3
      exact List.mem_of_getLast? h3
    · refine ⟨s, t, ?_⟩
      rw [List.concat_eq_append, ← List.append_assoc] at h
      exact (List.append_inj' h rfl).1
  · exact fun h => h.trans (List.prefix_append _ _).isInfix

theorem before_eq {pat : Text} : ∀ {a : Text} (b : Text), (∀ n < a.length, ¬ pat <+: (a ++ b).drop n) → pat <+: b → before pat (a ++ b) = a
  | [], [], _, h => by rw [List.append_nil]; rfl
  | [], c :: b, _, h => by
    rw [List.nil_append, before, if_pos (List.isPrefixOf_iff_prefix.2 h)]
  | c :: a, b, h1, h => by
    have h2 := h1 0 (by simp)
    rw [List.drop_zero, List.cons_append] at h2
    rw [List.cons_append, before, if_neg (fun e => h2 (List.isPrefixOf_iff_prefix.1 e)), before_eq (a := a) b ?_ h]
    intro n hn e
    exact h1 (n + 1) (by simpa using hn) (by simpa using e)

/-! ## Stripping -/

theorem strip_none {w : Text} (h : ∀ c ∈ w, isSpace c = false) : strip w = w := by
  have h1 : ∀ v : Text, (∀ c ∈ v, isSpace c = false) → v.dropWhile isSpace = v := by
    intro v hv
    cases v with
    | nil => rfl
    | cons c v => rw [List.dropWhile_cons_of_neg (by simp [hv c List.mem_cons_self])]
  rw [strip, h1 w h, h1 _ (by simpa using h), List.reverse_reverse]

theorem dropWhile_pad {pad : Text} (hp : ∀ c ∈ pad, isSpace c = true) (v : Text) : (pad ++ v).dropWhile isSpace = v.dropWhile isSpace := by
  induction pad with
  | nil => rfl
  | cons c p ih =>
    rw [List.cons_append, List.dropWhile_cons_of_pos (hp c List.mem_cons_self)]
    exact ih fun c hc => hp c (List.mem_cons_of_mem _ hc)

/-- Blanks before and behind a text without white space are removed. -/
theorem strip_pad {a w b : Text} (ha : ∀ c ∈ a, isSpace c = true) (hb : ∀ c ∈ b, isSpace c = true) (hw : ∀ c ∈ w, isSpace c = false) :
    strip (a ++ w ++ b) = w := by
  have h1 : ∀ v : Text, (∀ c ∈ v, isSpace c = false) → v.dropWhile isSpace = v := by
    intro v hv
    cases v with
    | nil => rfl
    | cons c v => rw [List.dropWhile_cons_of_neg (by simp [hv c List.mem_cons_self])]
  have hall : ∀ v : Text, (∀ c ∈ v, isSpace c = true) → v.dropWhile isSpace = [] := by
    intro v hv
    have := dropWhile_pad hv []
    simpa using this
  rw [strip, List.append_assoc, dropWhile_pad ha]
  cases w with
  | nil => simp [hall b hb]
  | cons c w =>
    rw [List.cons_append, List.dropWhile_cons_of_neg (by simp [hw c List.mem_cons_self]), ← List.cons_append, List.reverse_append,
      dropWhile_pad (by simpa using hb), h1 _ (fun x hx => hw x (List.mem_reverse.1 hx)), List.reverse_reverse]

/-! ## Tables -/

theorem parseRow_eq {flt : Text → Option ℝ} : ∀ {ws : List Text} {xs : List ℝ}, Numbers flt ws xs → parseRow flt ws = .ok xs
  | _, _, .nil => rfl
  | _, _, .cons h1 h2 => by
    simp only [parseRow, toFloat, h1, parseRow_eq h2]
    rfl

/-- The words of a line of `np.loadtxt`. -/
def cut (l : Text) : List Text := split (l.takeWhile fun c => c ≠ '#')

theorem loadRows_skip {flt : Text → Option ℝ} {w : Option ℕ} {l : Text} {ls : List Text} (h : cut l = []) : loadRows flt w (l :: ls) = loadRows flt w ls := by
  rw [loadRows]
  rw [cut] at h
  rw [h]

theorem loadRows_eq {flt : Text → Option ℝ} {n : ℕ} : ∀ {ls : List Text} {rows : List (List ℝ)} {w : Option ℕ}, (w = none ∨ w = some n) →
    List.Forall₂ (Numbers flt) ((ls.map cut).filter fun l => l ≠ []) rows → (∀ r ∈ rows, r.length = n) → loadRows flt w ls = .ok rows
  | [], rows, w, _, h, _ => by
    simp only [List.map_nil, List.filter_nil, List.forall₂_nil_left_iff] at h
    subst h
    rfl
  | l :: ls, rows, w, hw, h, hr => by
    by_cases hl : cut l = []
    · rw [List.map_cons, List.filter_cons_of_neg (by simp [hl])] at h
      rw [loadRows_skip hl]
      exact loadRows_eq hw h hr
    · rw [List.map_cons, List.filter_cons_of_pos (by simp [hl])] at h
      cases h with
      | @cons _ r _ rs h1 h2 =>
        have hlen : (cut l).length = n := by rw [h1.length_eq]; exact hr r List.mem_cons_self
        have ih := loadRows_eq (w := some n) (.inr rfl) h2 fun r hr' => hr r (List.mem_cons_of_mem _ hr')
        have hp := parseRow_eq h1
        rw [loadRows]
        change (match cut l with | [] => _ | v :: vs => _) = _
        cases hc : cut l with
        | nil => exact absurd hc hl
        | cons v vs =>
          rw [hc] at hlen hp
          have hw' : ¬ w.getD (v :: vs).length ≠ (v :: vs).length := by
            rcases hw with rfl | rfl <;> simp [hlen]
          rw [hlen] at hw'
          simp only [hp, hlen, ih]
          rw [if_neg hw']
          rfl

theorem takeWhile_all {l : Text} (h : '#' ∉ l) : (l.takeWhile fun c => c ≠ '#') = l :=
  List.takeWhile_eq_self_iff.2 fun c hc => by simpa using fun e : c = '#' => h (e ▸ hc)

theorem cut_line {l : Text} (hn : '\n' ∉ l) (hh : '#' ∉ l) : cut l = words (blank l) ∧ cut (l ++ ['\n']) = words (blank l) := by
  refine ⟨?_, ?_⟩
  · rw [cut, takeWhile_all hh, split_words hn]
  · rw [cut, takeWhile_all (by simp [hh]), split_newline, split_words hn]

theorem ends_words : ∀ {ls : List Text}, (∀ l ∈ ls, '\n' ∉ l ∧ '#' ∉ l) →
    (((ends ls).map cut).filter fun l => l ≠ []) = ((ls.map blank).map words).filter fun l => l ≠ []
  | [], _ => rfl
  | [l], h => by
    obtain ⟨h2, h3⟩ := h l List.mem_cons_self
    by_cases hl : l = []
    · subst hl
      rfl
    · simp only [ends, if_neg hl, List.map_cons, List.map_nil, (cut_line h2 h3).1]
  | l :: m :: ls, h => by
    obtain ⟨h2, h3⟩ := h l List.mem_cons_self
    have ih := ends_words (ls := m :: ls) fun l hl => h l (List.mem_cons_of_mem _ hl)
    rw [ends, List.map_cons, List.map_cons, List.map_cons, (cut_line h2 h3).2, List.filter_cons, List.filter_cons, ih]

/-- Reading the lines of a text as a table of numbers. -/
theorem loadRows_text {flt : Text → Option ℝ} {n : ℕ} {t : Text} {rows : List (List ℝ)} (hh : '#' ∉ t) (h : Rows flt t rows)
    (hr : ∀ r ∈ rows, r.length = n) : loadRows flt none (fileLines t) = .ok rows := by
  refine loadRows_eq (n := n) (.inl rfl) ?_ hr
  rw [fileLines_eq, ends_words fun l hl => ⟨(mem_splitAt hl).1, fun e => hh ((mem_splitAt hl).2 _ e)⟩, ← lines_blank]
  exact h

theorem squeeze_mat {rows : List (List ℝ)} {n : ℕ} (h2 : 2 ≤ rows.length) (hn : n ≠ 1) (hr : ∀ r ∈ rows, r.length = n) : squeeze rows = .mat rows := by
  match rows, h2 with
  | r :: s :: rs, _ =>
    have : r.length ≠ 1 := by rw [hr r List.mem_cons_self]; exact hn
    simp [squeeze, this]

end TB.QeOutput
