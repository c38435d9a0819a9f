import Verif.Model.QeInput
import Verif.Spec.Namelist
import Verif.Props.QeCards

/-!
# Reading back the namelists written by `TB.QeInput.namelists`
-/

namespace TB.NamelistLemmas
open TB TB.Cards TB.Spec.Cards TB.Spec.Namelist TB.QeInput TB.PropsCards

theorem splitAt_append (c : Char) : ∀ a b : List Char, splitAt c (a ++ c :: b) = splitAt c a ++ splitAt c b
  | [], b => by simp [splitAt]
  | x :: a, b => by
    rw [List.cons_append, splitAt, splitAt, splitAt_append c a b]
    by_cases hx : x = c
    · rw [if_pos hx, if_pos hx]
      rfl
    · rw [if_neg hx, if_neg hx]
      cases h : splitAt c a with
      | nil => exact absurd h (splitAt_ne_nil c a)
      | cons w ws => rfl

theorem table_append (a b : List Char) : table (a ++ '\n' :: b) = table a ++ table b := by
  rw [table, splitAt_append, List.map_append, List.filter_append]
  rfl

theorem squeeze_append (a b : List Char) : squeeze (a ++ b) = squeeze a ++ squeeze b := List.filter_append ..

theorem squeeze_none {a : List Char} (h : ' ' ∉ a) : squeeze a = a := by
  rw [squeeze, List.filter_eq_self]
  intro c hc
  simp only [decide_eq_true_eq]
  rintro rfl
  exact h hc

theorem mem_squeeze {a : List Char} {c : Char} (h : c ∈ squeeze a) : c ∈ a := (List.mem_filter.1 h).1

theorem squeeze_cons {c : Char} (hc : c ≠ ' ') (a : List Char) : squeeze (c :: a) = c :: squeeze a := by
  rw [squeeze, List.filter_cons_of_pos (by simpa using hc)]
  rfl

theorem squeeze_blank (a : List Char) : squeeze (' ' :: a) = squeeze a := by
  rw [squeeze, List.filter_cons_of_neg (by simp)]
  rfl

/-! ## Pieces of a line -/

theorem splitAt_commas : ∀ {ps : List Text}, ps ≠ [] → (∀ p ∈ ps, ',' ∉ p) → splitAt ',' (commas ps) = ps
  | [], h, _ => absurd rfl h
  | [p], _, h => splitAt_none (h p (by simp))
  | p :: q :: r, _, h => by
    rw [commas, splitAt_sep _ (h p (by simp)), splitAt_commas (by simp) (fun x hx => h x (by simp only [List.mem_cons] at hx ⊢; tauto))]

theorem squeeze_commas : ∀ ps : List Text, squeeze (commas ps) = commas (ps.map squeeze)
  | [] => rfl
  | [p] => rfl
  | p :: q :: r => by
    rw [commas, squeeze_append, squeeze_cons (by decide), squeeze_commas (q :: r)]
    rfl

theorem mem_commas {c : Char} : ∀ {ps : List Text}, c ∈ commas ps → c = ',' ∨ ∃ p ∈ ps, c ∈ p
  | [], h => by simp [commas] at h
  | [p], h => Or.inr ⟨p, by simp, h⟩
  | p :: q :: r, h => by
    rw [commas] at h
    rcases List.mem_append.1 h with h | h
    · exact Or.inr ⟨p, by simp, h⟩
    · rcases List.mem_cons.1 h with h | h
      · exact Or.inl h
      · rcases mem_commas h with h | ⟨x, hx, hc⟩
        · exact Or.inl h
        · exact Or.inr ⟨x, by simp only [List.mem_cons] at hx ⊢; tauto, hc⟩

/-- The line is read as the pairs `o`. -/
def Reads (l : List Text) (o : List (Text × Text)) : Prop :=
  l ≠ [] ∧ (∀ p ∈ l, ',' ∉ p ∧ '\n' ∉ p) ∧ (squeeze (commas l)).head? ≠ some '/' ∧ (squeeze (commas l)).head? ≠ some '&' ∧ pairs (commas l) = o

instance (l : List Text) (o : List (Text × Text)) : Decidable (Reads l o) := by unfold Reads; infer_instance

/-- The pieces behind the first. -/
def Rest (l : List Text) (o : List (Text × Text)) : Prop := (∀ p ∈ l, ',' ∉ p ∧ '\n' ∉ p) ∧ l.filterMap (fun p => pair (squeeze p)) = o

/-- A key as written, read as `k'`. -/
def Key (k k' : Text) : Prop :=
  squeeze k = k' ∧ k' ≠ [] ∧ '=' ∉ k ∧ ',' ∉ k ∧ '\n' ∉ k ∧ k'.head? ≠ some '/' ∧ k'.head? ≠ some '&' ∧ k'.head? ≠ some '!'

instance (k k' : Text) : Decidable (Key k k') := by unfold Key; infer_instance

/-- A value as written, read as `v'`. -/
def Val (v v' : Text) : Prop := squeeze v = v' ∧ ',' ∉ v ∧ '\n' ∉ v

instance (k k' : Text) : Decidable (Val k k') := by unfold Val; infer_instance

theorem rest_nil : Rest [] [] := ⟨by simp, rfl⟩

theorem rest_empty {r : List Text} {o : List (Text × Text)} (h : Rest r o) : Rest ([] :: r) o := by
  refine ⟨?_, h.2⟩
  intro p hp
  rcases List.mem_cons.1 hp with rfl | hp
  · simp
  · exact h.1 p hp

theorem pair_eq {k v : Text} (hk : '=' ∉ k) : pair (k ++ '=' :: v) = some (k, v) := by
  have h1 : ∀ c ∈ k, decide (c ≠ '=') = true := fun c hc => by
    simp only [decide_eq_true_eq]
    rintro rfl
    exact hk hc
  rw [pair, List.dropWhile_append_of_pos h1, List.takeWhile_append_of_pos h1]
  simp

theorem squeeze_asg {k k' v v' : Text} (hk : Key k k') (hv : Val v v') : squeeze (asg k v) = k' ++ '=' :: v' := by
  rw [asg, squeeze_append, squeeze_cons (by decide), hk.1, hv.1]

theorem pair_asg {k k' v v' : Text} (hk : Key k k') (hv : Val v v') : pair (squeeze (asg k v)) = some (k', v') := by
  rw [squeeze_asg hk hv, pair_eq]
  rw [← hk.1]
  exact fun h => hk.2.2.1 (mem_squeeze h)

theorem asg_sep {k k' v v' : Text} (hk : Key k k') (hv : Val v v') : ',' ∉ asg k v ∧ '\n' ∉ asg k v := by
  have e1 : ¬ ',' = '=' := by decide
  have e2 : ¬ '\n' = '=' := by decide
  simp only [asg, List.mem_append, List.mem_cons, e1, e2, false_or, not_or]
  exact ⟨⟨hk.2.2.2.1, hv.2.1⟩, hk.2.2.2.2.1, hv.2.2⟩

theorem rest_asg {k k' v v' : Text} (hk : Key k k') (hv : Val v v') {r : List Text} {o : List (Text × Text)} (h : Rest r o) :
    Rest (asg k v :: r) ((k', v') :: o) := by
  refine ⟨?_, ?_⟩
  · intro p hp
    rcases List.mem_cons.1 hp with rfl | hp
    · exact asg_sep hk hv
    · exact h.1 p hp
  · rw [List.filterMap_cons, pair_asg hk hv, h.2]

theorem reads_asg {k k' v v' : Text} (hk : Key k k') (hv : Val v v') {r : List Text} {o : List (Text × Text)} (h : Rest r o) :
    Reads (asg k v :: r) ((k', v') :: o) := by
  have hr := rest_asg hk hv h
  have hhead : (squeeze (commas (asg k v :: r))).head? = k'.head? := by
    obtain ⟨x, hx⟩ : ∃ x, commas (asg k v :: r) = asg k v ++ x := by
      cases r with
      | nil => exact ⟨[], by simp [commas]⟩
      | cons q r => exact ⟨',' :: commas (q :: r), rfl⟩
    rw [hx, squeeze_append, squeeze_asg hk hv]
    obtain ⟨a, b, rfl⟩ := List.exists_cons_of_ne_nil hk.2.1
    rfl
  refine ⟨by simp, hr.1, by rw [hhead]; exact hk.2.2.2.2.2.1, by rw [hhead]; exact hk.2.2.2.2.2.2.1, ?_⟩
  rw [pairs, hhead, if_neg hk.2.2.2.2.2.2.2, squeeze_commas, splitAt_commas (by simp)]
  · rw [List.filterMap_map]
    exact hr.2
  · intro p hp
    obtain ⟨q, hq, rfl⟩ := List.mem_map.1 hp
    exact fun hc => (hr.1 q hq).1 (mem_squeeze hc)

theorem val_word {v : Text} (h : Word v) (hc : ',' ∉ v) : Val v v := ⟨squeeze_none h.2.1, hc, h.2.2⟩

theorem val_blank {v v' : Text} (h : Val v v') : Val (' ' :: v) v' :=
  ⟨by rw [squeeze_blank, h.1], by simpa using h.2.1, by simpa using h.2.2⟩

theorem val_quoted {v : Text} (h1 : ' ' ∉ v) (h2 : '\n' ∉ v) (h3 : ',' ∉ v) : Val (quoted v) (quoted v) := by
  refine ⟨squeeze_none ?_, ?_, ?_⟩ <;> simp [quoted, h1, h2, h3]

/-! ## Groups -/

theorem read_line {ind : Text} (hi : squeeze ind = []) (hn : '\n' ∉ ind) {l : List Text} {o : List (Text × Text)} (h : Reads l o) :
    '\n' ∉ ind ++ commas l ∧ (∀ g, squeeze (ind ++ commas l) ≠ '&' :: g) ∧ squeeze (ind ++ commas l) ≠ ['/'] ∧ pairs (ind ++ commas l) = o := by
  have hs : squeeze (ind ++ commas l) = squeeze (commas l) := by rw [squeeze_append, hi, List.nil_append]
  refine ⟨?_, ?_, ?_, ?_⟩
  · intro hm
    rcases List.mem_append.1 hm with hm | hm
    · exact hn hm
    · rcases mem_commas hm with hm | ⟨p, hp, hm⟩
      · exact absurd hm (by decide)
      · exact (h.2.1 p hp).2 hm
  · intro g hg
    rw [hs] at hg
    exact h.2.2.2.1 (by rw [hg]; rfl)
  · intro hg
    rw [hs] at hg
    exact h.2.2.1 (by rw [hg]; rfl)
  · rw [← h.2.2.2.2, pairs, pairs, hs]

/-- A group whose lines are read as `o`. -/
def GroupReads (G : Group) (o : List (List (Text × Text))) : Prop := '\n' ∉ G.name ∧ List.Forall₂ Reads G.lines o

theorem lines_unlines : ∀ (ls : List Text) (r : Text), (∀ l ∈ ls, '\n' ∉ l) → splitAt '\n' (unlines ls ++ r) = ls ++ splitAt '\n' r
  | [], _, _ => rfl
  | l :: ls, r, h => by
    have : unlines (l :: ls) ++ r = l ++ '\n' :: (unlines ls ++ r) := by simp [unlines, nl]
    rw [this, splitAt_sep _ (h l (by simp)), lines_unlines ls r fun x hx => h x (by simp [hx])]
    rfl

theorem text_no_newline {ind : Text} (hi : squeeze ind = []) (hn : '\n' ∉ ind) {G : Group} {o : List (List (Text × Text))} (h : GroupReads G o) :
    ∀ l ∈ G.text ind, '\n' ∉ l := by
  intro l hl
  simp only [Group.text, List.mem_cons, List.mem_append, List.mem_map, List.not_mem_nil, or_false] at hl
  rcases hl with rfl | ⟨a, ha, rfl⟩ | rfl
  · simpa using h.1
  · obtain ⟨i, hi', rfl⟩ := List.mem_iff_getElem.1 ha
    have := (List.forall₂_iff_get.1 h.2)
    have hlt : i < o.length := by rw [← this.1]; exact hi'
    exact (read_line hi hn (this.2 i hi' hlt)).1
  · decide

theorem after_cons_ne {g : Text} {l : Text} {r : List Text} (h : squeeze l ≠ '&' :: g) : after g (l :: r) = after g r := by
  rw [after, after, List.dropWhile_cons_of_pos (by simpa using h)]

theorem after_skip {g : Text} : ∀ (ls r : List Text), (∀ l ∈ ls, squeeze l ≠ '&' :: g) → after g (ls ++ r) = after g r
  | [], _, _ => rfl
  | l :: ls, r, h => by
    rw [List.cons_append, after_cons_ne (h l (by simp)), after_skip ls r fun x hx => h x (by simp [hx])]

theorem after_here {g : Text} {l : Text} {r : List Text} (h : squeeze l = '&' :: g) : after g (l :: r) = r := by
  rw [after, List.dropWhile_cons_of_neg (by simpa using h), List.tail_cons]

theorem lines_read {ind : Text} (hi : squeeze ind = []) (hn : '\n' ∉ ind) : ∀ {ls : List (List Text)} {o : List (List (Text × Text))},
    List.Forall₂ Reads ls o → ∀ r : List Text,
      (((ls.map fun l => ind ++ commas l) ++ ['/'] :: r).takeWhile fun l => squeeze l ≠ ['/']).map pairs = o ∧
      (((ls.map fun l => ind ++ commas l) ++ ['/'] :: r).dropWhile fun l => squeeze l ≠ ['/']) = ['/'] :: r
  | [], _, .nil, r => by
    have : squeeze ['/'] = ['/'] := by decide
    simp [this]
  | l :: ls, o :: os, .cons h hs, r => by
    obtain ⟨h1, h2⟩ := lines_read hi hn hs r
    have hl := read_line hi hn h
    rw [List.map_cons, List.cons_append, List.takeWhile_cons_of_pos (by simpa using hl.2.2.1), List.dropWhile_cons_of_pos (by simpa using hl.2.2.1),
      List.map_cons, hl.2.2.2, h1]
    exact ⟨rfl, h2⟩

theorem text_skip {ind : Text} (hi : squeeze ind = []) (hn : '\n' ∉ ind) {G : Group} {o : List (List (Text × Text))} (h : GroupReads G o) {g : Text}
    (hg : squeeze G.name ≠ g) : ∀ l ∈ G.text ind, squeeze l ≠ '&' :: g := by
  intro l hl
  simp only [Group.text, List.mem_cons, List.mem_append, List.mem_map, List.not_mem_nil, or_false] at hl
  rcases hl with rfl | ⟨a, ha, rfl⟩ | rfl
  · rw [squeeze_cons (by decide)]
    simpa using hg
  · obtain ⟨i, hi', rfl⟩ := List.mem_iff_getElem.1 ha
    have := (List.forall₂_iff_get.1 h.2)
    have hlt : i < o.length := by rw [← this.1]; exact hi'
    exact (read_line hi hn (this.2 i hi' hlt)).2.1 g
  · intro e
    revert e
    rw [show squeeze ['/'] = ['/'] by decide]
    simp

/-- The groups of a file which are read as `o`. -/
def AllRead (gs : List Group) (os : List (List (List (Text × Text)))) : Prop := List.Forall₂ GroupReads gs os

theorem all_mem {gs : List Group} {os : List (List (List (Text × Text)))} (h : AllRead gs os) {G : Group} (hG : G ∈ gs) : ∃ o, GroupReads G o := by
  obtain ⟨i, hi', rfl⟩ := List.mem_iff_getElem.1 hG
  have := (List.forall₂_iff_get.1 h)
  have hlt : i < os.length := by rw [← this.1]; exact hi'
  exact ⟨_, this.2 i hi' hlt⟩

theorem namelists_lines {start : List Text} (hst : ∀ l ∈ start, l = []) {ind : Text} (hi : squeeze ind = []) (hn : '\n' ∉ ind) {gs : List Group}
    {os : List (List (List (Text × Text)))} (h : AllRead gs os) (r : Text) :
    splitAt '\n' (namelists start ind gs ++ r) = start ++ ((gs.map (Group.text ind)).flatten ++ splitAt '\n' r) := by
  rw [namelists, lines_unlines, List.append_assoc]
  intro l hl
  rcases List.mem_append.1 hl with hl | hl
  · rw [hst l hl]
    simp
  · obtain ⟨t, ht, hl⟩ := List.mem_flatten.1 hl
    obtain ⟨G, hG, rfl⟩ := List.mem_map.1 ht
    obtain ⟨o, ho⟩ := all_mem h hG
    exact text_no_newline hi hn ho l hl

theorem after_find {start : List Text} (hst : ∀ l ∈ start, l = []) {ind : Text} (hi : squeeze ind = []) (hn : '\n' ∉ ind) {pre post : List Group} {G : Group}
    {os : List (List (List (Text × Text)))} (h : AllRead (pre ++ G :: post) os) {g : Text} (hg : squeeze G.name = g) (hpre : ∀ P ∈ pre, squeeze P.name ≠ g)
    (r : Text) : after g (splitAt '\n' (namelists start ind (pre ++ G :: post) ++ r)) =
      (G.lines.map fun l => ind ++ commas l) ++ ['/'] :: ((post.map (Group.text ind)).flatten ++ splitAt '\n' r) := by
  rw [namelists_lines hst hi hn h, after_skip, List.map_append, List.flatten_append, List.append_assoc, after_skip]
  · rw [List.map_cons, List.flatten_cons, Group.text, List.cons_append, List.cons_append, after_here (by rw [squeeze_cons (by decide), hg])]
    simp
  · intro l hl
    obtain ⟨t, ht, hl⟩ := List.mem_flatten.1 hl
    obtain ⟨P, hP, rfl⟩ := List.mem_map.1 ht
    obtain ⟨o, ho⟩ := all_mem h (List.mem_append_left _ hP)
    exact text_skip hi hn ho (hpre P hP) l hl
  · intro l hl
    rw [hst l hl]
    simp [squeeze]

theorem forall2_split {pre post : List Group} {G : Group} {os : List (List (List (Text × Text)))} (h : AllRead (pre ++ G :: post) os) :
    ∃ o, os[pre.length]? = some o ∧ GroupReads G o := by
  have := (List.forall₂_iff_get.1 h)
  have hlt : pre.length < (pre ++ G :: post).length := by simp
  have hlt' : pre.length < os.length := by rw [← this.1]; exact hlt
  refine ⟨os[pre.length], List.getElem?_eq_getElem hlt', ?_⟩
  have h2 := this.2 pre.length hlt hlt'
  simpa using h2

/-- The pairs of a group. -/
theorem settings_find {start : List Text} (hst : ∀ l ∈ start, l = []) {ind : Text} (hi : squeeze ind = []) (hn : '\n' ∉ ind) {gs : List Group}
    (pre post : List Group) (G : Group) (hgs : gs = pre ++ G :: post) {os : List (List (List (Text × Text)))} (h : AllRead gs os) {g : Text}
    (hg : squeeze G.name = g) (hpre : ∀ P ∈ pre, squeeze P.name ≠ g) (r : Text) :
    settings g (namelists start ind gs ++ r) = (os.getD pre.length []).flatten := by
  subst hgs
  obtain ⟨o, ho, hG⟩ := forall2_split h
  rw [settings, after_find hst hi hn h hg hpre, (lines_read hi hn hG.2 _).1, List.getD_eq_getElem?_getD, ho]
  rfl

/-- The text behind the last group. -/
theorem cards_find {start : List Text} (hst : ∀ l ∈ start, l = []) {ind : Text} (hi : squeeze ind = []) (hn : '\n' ∉ ind) {gs : List Group}
    (pre : List Group) (G : Group) (hgs : gs = pre ++ [G]) {os : List (List (List (Text × Text)))} (h : AllRead gs os) {g : Text}
    (hg : squeeze G.name = g) (hpre : ∀ P ∈ pre, squeeze P.name ≠ g) (r : Text) : cards g (namelists start ind gs ++ r) = table r := by
  subst hgs
  obtain ⟨o, ho, hG⟩ := forall2_split h
  rw [cards, after_find hst hi hn h hg hpre, (lines_read hi hn hG.2 _).2]
  rfl

theorem group_reads {name : Text} {ls : List (List Text)} {o : List (List (Text × Text))} (hn : '\n' ∉ name) (h : List.Forall₂ Reads ls o) :
    GroupReads ⟨name, ls⟩ o := ⟨hn, h⟩

theorem split_at {gs : List Group} {names : List Text} (hnames : gs.map Group.name = names) {n : ℕ} {g : Text}
    (hg : (names.map squeeze)[n]? = some g) (hpre : g ∉ (names.map squeeze).take n) :
    ∃ G, gs = gs.take n ++ G :: gs.drop (n + 1) ∧ (gs.take n).length = n ∧ squeeze G.name = g ∧ ∀ P ∈ gs.take n, squeeze P.name ≠ g := by
  subst hnames
  rw [List.map_map, List.getElem?_map] at hg
  obtain ⟨G, hG, hGg⟩ := Option.map_eq_some_iff.1 hg
  obtain ⟨hlt, hG⟩ := List.getElem?_eq_some_iff.1 hG
  refine ⟨G, ?_, by rw [List.length_take]; omega, hGg, ?_⟩
  · rw [← hG, ← List.drop_eq_getElem_cons hlt, List.take_append_drop]
  · intro P hP e
    refine hpre ?_
    rw [List.map_map, ← List.map_take]
    exact List.mem_map.2 ⟨P, hP, e⟩

/-- The pairs of the group number `n`. -/
theorem settings_at {start : List Text} (hst : ∀ l ∈ start, l = []) {ind : Text} (hi : squeeze ind = [] ∧ '\n' ∉ ind) {gs : List Group} (names : List Text)
    (hnames : gs.map Group.name = names) {os : List (List (List (Text × Text)))} (h : AllRead gs os) (n : ℕ) {g : Text}
    (hg : (names.map squeeze)[n]? = some g) (hpre : g ∉ (names.map squeeze).take n) (r : Text) :
    settings g (namelists start ind gs ++ r) = (os.getD n []).flatten := by
  obtain ⟨G, h1, h2, h3, h4⟩ := split_at hnames hg hpre
  rw [settings_find hst hi.1 hi.2 _ _ G h1 h h3 h4, h2]

/-- The text behind the group number `n`, the last one. -/
theorem cards_at {start : List Text} (hst : ∀ l ∈ start, l = []) {ind : Text} (hi : squeeze ind = [] ∧ '\n' ∉ ind) {gs : List Group} (names : List Text)
    (hnames : gs.map Group.name = names) {os : List (List (List (Text × Text)))} (h : AllRead gs os) (n : ℕ) (hlen : names.length = n + 1) {g : Text}
    (hg : (names.map squeeze)[n]? = some g) (hpre : g ∉ (names.map squeeze).take n) (r : Text) : cards g (namelists start ind gs ++ r) = table r := by
  obtain ⟨G, h1, _, h3, h4⟩ := split_at hnames hg hpre
  have hd : gs.drop (n + 1) = [] := by
    rw [List.drop_eq_nil_iff, ← hlen, ← hnames, List.length_map]
  rw [hd] at h1
  exact cards_find hst hi.1 hi.2 _ G h1 h h3 h4 r

end TB.NamelistLemmas
