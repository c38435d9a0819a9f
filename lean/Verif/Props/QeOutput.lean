import Verif.Lemmas.QeOutput
import Mathlib.Tactic.NormNum

/-!
# C149: the readers of the texts written by Quantum Espresso
-/

namespace TB.PropsQeOutput
open TB TB.Cards TB.QeOutput TB.Spec.Cards TB.Spec.QeOutput

/-! ## Bands -/

/-- Used in examples only: a `float` that knows a few words. -/
noncomputable def exFlt (w : Text) : Option ℝ :=
  if w = "0.0".toList then some 0 else if w = "0.5".toList then some (1 / 2) else if w = "-1.5".toList then some (-3 / 2)
  else if w = "7.25".toList then some (29 / 4) else none

theorem ex0 : exFlt "0.0".toList = some 0 := if_pos rfl
theorem ex05 : exFlt "0.5".toList = some (1 / 2) := (if_neg (by decide +kernel)).trans (if_pos rfl)
theorem ex15 : exFlt "-1.5".toList = some (-3 / 2) := (if_neg (by decide +kernel)).trans ((if_neg (by decide +kernel)).trans (if_pos rfl))
theorem ex7 : exFlt "7.25".toList = some (29 / 4) :=
  (if_neg (by decide +kernel)).trans ((if_neg (by decide +kernel)).trans ((if_neg (by decide +kernel)).trans (if_pos rfl)))
theorem exNil : exFlt [] = none := by
  rw [exFlt, if_neg (by decide +kernel), if_neg (by decide +kernel), if_neg (by decide +kernel), if_neg (by decide +kernel)]

theorem point_end {flt : Text → Option ℝ} {l w : Text} {x : ℝ} {s : List ℝ} (hn : '\n' ∉ l) (hm : pointMark <:+: l) (hw : LastWord l w)
    (hx : flt w = some x) {e : Text} (he : e = [] ∨ e = ['\n']) : bandxPoint flt (l ++ e) s = .ok (s ++ [x]) := by
  have hc : contains pointMark (l ++ e) = true := (contains_iff _ _).2 (hm.trans (List.prefix_append _ _).isInfix)
  have hs : split (l ++ e) = words (blank l) := by
    rcases he with rfl | rfl
    · rw [List.append_nil, split_words hn]
    · rw [split_newline, split_words hn]
  have hg : itemBack (words (blank l)) 0 = .ok w := by
    rw [itemBack, item, ← List.head?_eq_getElem?, List.head?_reverse, hw]
  rw [bandxPoint, if_pos hc, hs, hg]
  simp only [toFloat, hx, bind, Except.bind]
  rfl

theorem mark_end {mark l e : Text} (h0 : mark ≠ []) (hn : '\n' ∉ mark) (he : e = [] ∨ e = ['\n']) : mark <:+: l ++ e ↔ mark <:+: l := by
  rcases he with rfl | rfl
  · rw [List.append_nil]
  · exact infix_newline h0 hn

theorem pointMark_ok : pointMark ≠ [] ∧ '\n' ∉ pointMark := by decide +kernel
theorem plotMark_ok : plotMark ≠ [] ∧ '\n' ∉ plotMark := by decide +kernel

theorem point_none {flt : Text → Option ℝ} {l : Text} {s : List ℝ} (hm : ¬ pointMark <:+: l) {e : Text} (he : e = [] ∨ e = ['\n']) :
    bandxPoint flt (l ++ e) s = .ok s := by
  rw [bandxPoint, if_neg]
  rwa [contains_iff, mark_end pointMark_ok.1 pointMark_ok.2 he]

theorem plot_end {l w : Text} {d : Option Text} (hn : '\n' ∉ l) (hm : plotMark <:+: l) (hw : LastWord l w)
    {e : Text} (he : e = [] ∨ e = ['\n']) : bandxPlot (l ++ e) d = .ok (some w) := by
  have hc : contains plotMark (l ++ e) = true := (contains_iff _ _).2 (hm.trans (List.prefix_append _ _).isInfix)
  have hs : split (l ++ e) = words (blank l) := by
    rcases he with rfl | rfl
    · rw [List.append_nil, split_words hn]
    · rw [split_newline, split_words hn]
  have hg : itemBack (words (blank l)) 0 = .ok w := by
    rw [itemBack, item, ← List.head?_eq_getElem?, List.head?_reverse, hw]
  have hst : strip w = w := strip_none (split_mem (t := l) (by rw [split_words hn]; exact List.mem_of_getLast? hw))
  rw [bandxPlot, if_pos hc, hs, hg]
  simp only [bind, Except.bind, hst]
  rfl

theorem plot_none {l : Text} {d : Option Text} (hm : ¬ plotMark <:+: l) {e : Text} (he : e = [] ∨ e = ['\n']) :
    bandxPlot (l ++ e) d = .ok d := by
  rw [bandxPlot, if_neg]
  rwa [contains_iff, mark_end plotMark_ok.1 plotMark_ok.2 he]

theorem bandx_step {flt : Text → Option ℝ} {l e : Text} {ls rest : List Text} {s xs : List ℝ} {d : Option Text} {fs : List Text}
    (hn : '\n' ∉ l) (he : e = [] ∨ e = ['\n'])
    (h1 : List.Forall₂ (fun l x => ∃ w, LastWord l w ∧ flt w = some x) ((l :: ls).filter fun l => pointMark <:+: l) xs)
    (h2 : List.Forall₂ LastWord ((l :: ls).filter fun l => plotMark <:+: l) fs)
    (ih : ∀ {s xs : List ℝ} {d : Option Text} {fs : List Text},
      List.Forall₂ (fun l x => ∃ w, LastWord l w ∧ flt w = some x) (ls.filter fun l => pointMark <:+: l) xs →
      List.Forall₂ LastWord (ls.filter fun l => plotMark <:+: l) fs → bandxLoop flt rest s d = .ok (s ++ xs, fs.getLast?.or d)) :
    bandxLoop flt ((l ++ e) :: rest) s d = .ok (s ++ xs, fs.getLast?.or d) := by
  have plot : ∀ {s xs : List ℝ}, List.Forall₂ (fun l x => ∃ w, LastWord l w ∧ flt w = some x) (ls.filter fun l => pointMark <:+: l) xs →
      (do let d ← bandxPlot (l ++ e) d; bandxLoop flt rest s d) = .ok (s ++ xs, fs.getLast?.or d) := by
    intro s xs h1
    by_cases hm : plotMark <:+: l
    · rw [List.filter_cons_of_pos (by simpa using hm)] at h2
      cases h2 with
      | @cons _ f _ fs hf h2 =>
        rw [plot_end hn hm hf he]
        change bandxLoop flt rest s (some f) = _
        rw [ih h1 h2, List.getLast?_cons]
        cases fs.getLast? <;> rfl
    · rw [List.filter_cons_of_neg (by simpa using hm)] at h2
      rw [plot_none hm he]
      exact ih h1 h2
  rw [bandxLoop]
  by_cases hm : pointMark <:+: l
  · rw [List.filter_cons_of_pos (by simpa using hm)] at h1
    cases h1 with
    | @cons _ x _ xs hx h1 =>
      obtain ⟨w, hw, hx⟩ := hx
      rw [point_end hn hm hw hx he]
      have := plot (s := s ++ [x]) h1
      rw [List.append_assoc] at this
      exact this
  · rw [List.filter_cons_of_neg (by simpa using hm)] at h1
    rw [point_none hm he]
    exact plot h1

theorem bandx_loop {flt : Text → Option ℝ} : ∀ {ls : List Text}, (∀ l ∈ ls, '\n' ∉ l) → ∀ {s xs : List ℝ} {d : Option Text} {fs : List Text},
    List.Forall₂ (fun l x => ∃ w, LastWord l w ∧ flt w = some x) (ls.filter fun l => pointMark <:+: l) xs →
    List.Forall₂ LastWord (ls.filter fun l => plotMark <:+: l) fs → bandxLoop flt (ends ls) s d = .ok (s ++ xs, fs.getLast?.or d)
  | [], _, s, xs, d, fs, h1, h2 => by
    simp only [List.filter_nil, List.forall₂_nil_left_iff] at h1 h2
    subst h1 h2
    simp [ends, bandxLoop]
  | [l], h, s, xs, d, fs, h1, h2 => by
    have hn := h l List.mem_cons_self
    by_cases hl : l = []
    · subst hl
      have e1 : ¬ pointMark <:+: [] := by simpa using pointMark_ok.1
      have e2 : ¬ plotMark <:+: [] := by simpa using plotMark_ok.1
      rw [List.filter_cons_of_neg (by simpa using e1), List.filter_nil, List.forall₂_nil_left_iff] at h1
      rw [List.filter_cons_of_neg (by simpa using e2), List.filter_nil, List.forall₂_nil_left_iff] at h2
      subst h1 h2
      simp [ends, bandxLoop]
    · have := bandx_step (e := []) (rest := []) (s := s) (d := d) hn (.inl rfl) h1 h2 (by
        intro s xs d fs h1 h2
        simp only [List.filter_nil, List.forall₂_nil_left_iff] at h1 h2
        subst h1 h2
        simp [bandxLoop])
      rw [List.append_nil] at this
      rw [ends, if_neg hl]
      exact this
  | l :: m :: ls, h, s, xs, d, fs, h1, h2 => by
    have hn := h l List.mem_cons_self
    rw [ends]
    exact bandx_step hn (.inr rfl) h1 h2 (bandx_loop fun l hl => h l (List.mem_cons_of_mem _ hl))

/-- A table with at least two rows and two columns, read with `unpack=True`. -/
theorem loadtxt_columns {flt : Text → Option ℝ} {files : Files} {f t : Text} (hf : files f = some t) {rows : List (List ℝ)}
    (hl : loadRows flt none (fileLines t) = .ok rows) {n : ℕ} (hn : n ≠ 1) (h2 : 2 ≤ rows.length) (hr : ∀ r ∈ rows, r.length = n) :
    loadtxt flt files f 0 true = .ok (.mat ((List.range n).map fun j => rows.map fun r => r.getD j 0)) := by
  have hh : (rows.headD []).length = n := by
    cases rows with
    | nil => simp at h2
    | cons r rs => exact hr r List.mem_cons_self
  have e : loadtxt flt files f 0 true = .ok ((squeeze rows).transpose) := by
    simp only [loadtxt, openFile, hf, List.drop_zero, hl, bind, Except.bind]
    rfl
  rw [e, squeeze_mat h2 hn hr, Arr.transpose, hh]

/-- C149: `read_bandx` returns the numbers at the ends of all lines with "high-symmetry point" in their order, and the two columns of the file named at the
end of the last line with "Plottable bands (eV) written to file". -/
theorem C149_bandx {flt : Text → Option ℝ} {files : Files} {name out f dat : Text} (ho : files (name ++ ".bandx.out".toList) = some out)
    {xs : List ℝ} (hx : List.Forall₂ (fun l x => ∃ w, LastWord l w ∧ flt w = some x) (linesWith "high-symmetry point".toList out) xs)
    {fs : List Text} (hfs : List.Forall₂ LastWord (linesWith "Plottable bands (eV) written to file".toList out) fs) (hf : fs.getLast? = some f)
    (hd : files f = some dat) (hdc : '#' ∉ dat) {pts : List (ℝ × ℝ)} (hr : Rows flt dat (pts.map fun p => [p.1, p.2]))
    (h2 : 2 ≤ pts.length) : readBandx flt files name = .ok (xs, .mat [pts.map Prod.fst, pts.map Prod.snd]) := by
  have hl := bandx_loop (flt := flt) (ls := splitAt '\n' out) (fun l hl => (mem_splitAt hl).1) (s := []) (d := none) hx hfs
  rw [← fileLines_eq] at hl
  have hlen : ∀ r ∈ pts.map (fun p => [p.1, p.2]), r.length = 2 := List.forall_mem_map.2 fun _ _ => rfl
  have hz := loadtxt_columns hd (loadRows_text hdc hr hlen) (by norm_num) (by simpa using h2) hlen
  have hz' : loadtxt flt files f 0 true = .ok (.mat [pts.map Prod.fst, pts.map Prod.snd]) := by
    rw [hz]
    simp [List.range_succ, Function.comp_def]
  simp only [readBandx, openFile, ho, bind, Except.bind, hl, bandxData, hf, Option.or, hz', List.nil_append]
  rfl

/-- Two points, a second name of a file that replaces the first, and a table with an empty line. -/
example : readBandx exFlt
    (fun f => if f = "Cu.bandx.out".toList then some ("Plottable bands (eV) written to file old.gnu\nhigh-symmetry point:  0.0 0.5 x coordinate   0.0\n" ++
      "high-symmetry point:  0.5 0.5 x coordinate   0.5\n\nPlottable bands (eV) written to file Cu.gnu").toList
      else if f = "Cu.gnu".toList then some " 0.0 -1.5\n 0.5 7.25\n\n 0.0 0.5\n".toList else none) "Cu".toList =
    .ok ([0, 1 / 2], .mat [[0, 1 / 2, 0], [-3 / 2, 29 / 4, 1 / 2]]) := by
  refine C149_bandx (out := _) (f := "Cu.gnu".toList) (fs := ["old.gnu".toList, "Cu.gnu".toList]) (pts := [(0, -3 / 2), (1 / 2, 29 / 4), (0, 1 / 2)])
    (if_pos rfl) ?_ ?_ rfl ((if_neg (by decide +kernel)).trans (if_pos rfl)) (by decide +kernel) ?_ (by simp)
  · have : linesWith "high-symmetry point".toList ("Plottable bands (eV) written to file old.gnu\nhigh-symmetry point:  0.0 0.5 x coordinate   0.0\n" ++
      "high-symmetry point:  0.5 0.5 x coordinate   0.5\n\nPlottable bands (eV) written to file Cu.gnu").toList =
      ["high-symmetry point:  0.0 0.5 x coordinate   0.0".toList, "high-symmetry point:  0.5 0.5 x coordinate   0.5".toList] := by decide +kernel
    rw [this]
    exact .cons ⟨"0.0".toList, by unfold LastWord; decide +kernel, if_pos rfl⟩
      (.cons ⟨"0.5".toList, by unfold LastWord; decide +kernel, (if_neg (by decide +kernel)).trans (if_pos rfl)⟩ .nil)
  · have : linesWith "Plottable bands (eV) written to file".toList ("Plottable bands (eV) written to file old.gnu\nhigh-symmetry point:  0.0 0.5 x coordinate   0.0\n" ++
      "high-symmetry point:  0.5 0.5 x coordinate   0.5\n\nPlottable bands (eV) written to file Cu.gnu").toList =
      ["Plottable bands (eV) written to file old.gnu".toList, "Plottable bands (eV) written to file Cu.gnu".toList] := by decide +kernel
    rw [this]
    exact .cons (by unfold LastWord; decide +kernel) (.cons (by unfold LastWord; decide +kernel) .nil)
  · have : table (blank " 0.0 -1.5\n 0.5 7.25\n\n 0.0 0.5\n".toList) =
      [["0.0".toList, "-1.5".toList], ["0.5".toList, "7.25".toList], ["0.0".toList, "0.5".toList]] := by decide +kernel
    rw [Rows, this]
    exact .cons (.cons ex0 (.cons ex15 .nil)) (.cons (.cons ex05 (.cons ex7 .nil)) (.cons (.cons ex0 (.cons ex05 .nil)) .nil))

/-- C149: without a line that names the file of the bands `IOError` is raised. -/
theorem C149_bandx_missing {flt : Text → Option ℝ} {files : Files} {name out : Text} (ho : files (name ++ ".bandx.out".toList) = some out)
    {xs : List ℝ} (hx : List.Forall₂ (fun l x => ∃ w, LastWord l w ∧ flt w = some x) (linesWith "high-symmetry point".toList out) xs)
    (hn : linesWith "Plottable bands (eV) written to file".toList out = []) : readBandx flt files name = .error .io := by
  have hl := bandx_loop (flt := flt) (ls := splitAt '\n' out) (fun l hl => (mem_splitAt hl).1) (s := []) (d := none) hx
    (fs := []) (by rw [linesWith] at hn; rw [show plotMark = "Plottable bands (eV) written to file".toList from rfl, hn]; exact .nil)
  rw [← fileLines_eq] at hl
  simp only [readBandx, openFile, ho, bind, Except.bind, hl]
  rfl

/-- An empty output. -/
example : readBandx exFlt (fun _ => some []) "Cu".toList = .error .io :=
  C149_bandx_missing (out := []) rfl (xs := []) (by rw [show linesWith _ [] = [] by decide +kernel]; exact .nil) (by decide +kernel)

/-! ## Density of states -/

theorem rows_header {flt : Text → Option ℝ} {h b : Text} (hn : '\n' ∉ h) : loadRows flt none (fileLines ('#' :: h ++ '\n' :: b)) = loadRows flt none (fileLines b) := by
  rw [fileLines_cons b (by simp [hn])]
  exact loadRows_skip (by simp [cut, split, splitBy])

theorem fermi_last {flt : Text → Option ℝ} {a num e : Text} (he : ' ' ∉ e) (hn : ' ' ∉ num) (hm : "EFermi".toList <:+: a) :
    dosFermi flt (a ++ ' ' :: num ++ ' ' :: e) = if strip e = "eV".toList then (toFloat flt num).map some else .ok none := by
  have hc : contains "EFermi".toList (a ++ ' ' :: num ++ ' ' :: e) = true := by
    rw [contains_iff, List.append_assoc]
    exact hm.trans (List.prefix_append _ _).isInfix
  have single : ∀ w : Text, ' ' ∉ w → splitBy (fun c => c = ' ') w = [w] := by
    intro w
    induction w with
    | nil => intro _; rfl
    | cons c w ih =>
      intro h
      have hc : ¬ (c = ' ') := fun e => h (e ▸ List.mem_cons_self)
      rw [splitBy, ih fun e => h (List.mem_cons_of_mem _ e), if_neg (by simpa using hc)]
  have hs : splitBy (fun c => c = ' ') (a ++ ' ' :: num ++ ' ' :: e) = splitBy (fun c => c = ' ') a ++ [num] ++ [e] := by
    rw [splitBy_append (by simp), splitBy_append (by simp), single num hn, single e he]
  have e1 : itemBack (splitBy (fun c => c = ' ') a ++ [num] ++ [e]) 0 = .ok e := by simp [itemBack, item]
  have e2 : itemBack (splitBy (fun c => c = ' ') a ++ [num] ++ [e]) 1 = .ok num := by simp [itemBack, item]
  rw [dosFermi, if_pos hc, hs, e1, e2]
  change (if strip e = "eV".toList then _ else _) = _
  split_ifs with h
  · simp only [bind, Except.bind]
    cases h2 : toFloat flt num <;> rfl
  · rfl

/-- A file of `dos.x`: the first line is a comment, then comes a table with three columns. -/
theorem dos_read {flt : Text → Option ℝ} {files : Files} {name h body : Text} (hf : files (name ++ ".Dos.dat".toList) = some ('#' :: h ++ '\n' :: body))
    (hn : '\n' ∉ h) (hc : '#' ∉ body) {pts : List (ℝ × ℝ × ℝ)} (hr : Rows flt body (pts.map fun p => [p.1, p.2.1, p.2.2]))
    (h2 : 2 ≤ pts.length) {e : Option ℝ} (he : dosFermi flt ('#' :: h ++ ['\n']) = .ok e) :
    readDos flt files name = .ok (.mat [pts.map fun p => p.1, pts.map fun p => p.2.1, pts.map fun p => p.2.2], e) := by
  have hlen : ∀ r ∈ pts.map (fun p => [p.1, p.2.1, p.2.2]), r.length = 3 := List.forall_mem_map.2 fun _ _ => rfl
  have hrows := (rows_header (flt := flt) (b := body) hn).trans (loadRows_text hc hr hlen)
  have hz := loadtxt_columns hf hrows (by norm_num) (by simpa using h2) hlen
  have hz' : loadtxt flt files (name ++ ".Dos.dat".toList) 0 true = .ok (.mat [pts.map fun p => p.1, pts.map fun p => p.2.1, pts.map fun p => p.2.2]) := by
    rw [hz]
    simp [List.range_succ, Function.comp_def]
  have hhead : (fileLines ('#' :: h ++ '\n' :: body)).headD [] = '#' :: h ++ ['\n'] := by
    rw [fileLines_cons body (by simp [hn])]
    rfl
  simp only [readDos, openFile, hf, bind, Except.bind, hhead, he, hz']
  rfl

/-- C149: `read_dos` returns the three columns of the table and the number between the last blanks of the first line, if that line names `EFermi` and ends
with `eV`. -/
theorem C149_dos {flt : Text → Option ℝ} {files : Files} {name pre num body : Text} {E : ℝ}
    (hf : files (name ++ ".Dos.dat".toList) = some ('#' :: (pre ++ ' ' :: num ++ " eV".toList) ++ '\n' :: body))
    (hpre : '\n' ∉ pre) (hm : "EFermi".toList <:+: pre) (hn : ' ' ∉ num ∧ '\n' ∉ num) (hE : flt num = some E)
    (hc : '#' ∉ body) {pts : List (ℝ × ℝ × ℝ)} (hr : Rows flt body (pts.map fun p => [p.1, p.2.1, p.2.2])) (h2 : 2 ≤ pts.length) :
    readDos flt files name = .ok (.mat [pts.map fun p => p.1, pts.map fun p => p.2.1, pts.map fun p => p.2.2], some E) := by
  refine dos_read hf (by simp [hpre, hn.2]) hc hr h2 ?_
  have hfe := fermi_last (flt := flt) (a := '#' :: pre) (num := num) (e := "eV\n".toList) (by decide +kernel) hn.1 (hm.trans (List.suffix_cons _ _).isInfix)
  rw [if_pos (by decide +kernel), toFloat, hE] at hfe
  rw [← show (Except.ok E : Except RErr ℝ).map some = .ok (some E) from rfl, ← hfe]
  congr 1
  simp

/-- C149: a blank behind `eV` hides the Fermi energy: `None` is returned for it. -/
theorem C149_dos_hidden {flt : Text → Option ℝ} {files : Files} {name pre num body : Text}
    (hf : files (name ++ ".Dos.dat".toList) = some ('#' :: (pre ++ ' ' :: num ++ " eV ".toList) ++ '\n' :: body))
    (hpre : '\n' ∉ pre) (hm : "EFermi".toList <:+: pre) (hn : '\n' ∉ num)
    (hc : '#' ∉ body) {pts : List (ℝ × ℝ × ℝ)} (hr : Rows flt body (pts.map fun p => [p.1, p.2.1, p.2.2])) (h2 : 2 ≤ pts.length) :
    readDos flt files name = .ok (.mat [pts.map fun p => p.1, pts.map fun p => p.2.1, pts.map fun p => p.2.2], none) := by
  refine dos_read hf (by simp [hpre, hn]) hc hr h2 ?_
  have h := fermi_last (flt := flt) (a := '#' :: pre ++ ' ' :: num) (num := "eV".toList) (e := "\n".toList) (by decide +kernel) (by decide +kernel)
    ((hm.trans (List.suffix_cons _ _).isInfix).trans (List.prefix_append _ _).isInfix)
  rw [if_neg (by decide +kernel)] at h
  rw [← h]
  congr 1
  simp

/-- C149: without `EFermi` in the first line the Fermi energy is `None`. -/
theorem C149_dos_without {flt : Text → Option ℝ} {files : Files} {name h body : Text} (hf : files (name ++ ".Dos.dat".toList) = some ('#' :: h ++ '\n' :: body))
    (hn : '\n' ∉ h) (hm : ¬ "EFermi".toList <:+: '#' :: h) (hc : '#' ∉ body) {pts : List (ℝ × ℝ × ℝ)}
    (hr : Rows flt body (pts.map fun p => [p.1, p.2.1, p.2.2])) (h2 : 2 ≤ pts.length) :
    readDos flt files name = .ok (.mat [pts.map fun p => p.1, pts.map fun p => p.2.1, pts.map fun p => p.2.2], none) := by
  refine dos_read hf hn hc hr h2 ?_
  rw [dosFermi, if_neg]
  rwa [contains_iff, infix_newline (by decide +kernel) (by decide +kernel)]

/-- C149: with one energy the table loses an axis: `read_dos` returns a vector of three numbers instead of three vectors. -/
theorem C149_dos_one {flt : Text → Option ℝ} {files : Files} {name h body : Text} (hf : files (name ++ ".Dos.dat".toList) = some ('#' :: h ++ '\n' :: body))
    (hn : '\n' ∉ h) (hm : ¬ "EFermi".toList <:+: '#' :: h) (hc : '#' ∉ body) {E d N : ℝ} (hr : Rows flt body [[E, d, N]]) :
    readDos flt files name = .ok (.vec [E, d, N], none) := by
  have hrows := (rows_header (flt := flt) (b := body) hn).trans (loadRows_text (n := 3) hc hr (by simp))
  have hz : loadtxt flt files (name ++ ".Dos.dat".toList) 0 true = .ok (.vec [E, d, N]) := by
    simp only [loadtxt, openFile, hf, List.drop_zero, hrows, bind, Except.bind]
    rfl
  have hhead : (fileLines ('#' :: h ++ '\n' :: body)).headD [] = '#' :: h ++ ['\n'] := by
    rw [fileLines_cons body (by simp [hn])]
    rfl
  have he : dosFermi flt ('#' :: h ++ ['\n']) = .ok none := by
    rw [dosFermi, if_neg]
    rwa [contains_iff, infix_newline (by decide +kernel) (by decide +kernel)]
  simp only [readDos, openFile, hf, bind, Except.bind, hhead, he, hz]
  rfl

/-- One energy. -/
example : readDos exFlt (fun _ => some ('#' :: " E".toList ++ '\n' :: "0.0 0.5 7.25\n".toList)) "Cu".toList = .ok (.vec [0, 1 / 2, 29 / 4], none) :=
  C149_dos_one (h := " E".toList) rfl (by decide +kernel) (by decide +kernel) (by decide +kernel) (by
    rw [Rows, show table (blank "0.0 0.5 7.25\n".toList) = [["0.0".toList, "0.5".toList, "7.25".toList]] by decide +kernel]
    exact .cons (.cons ex0 (.cons ex05 (.cons ex7 .nil))) .nil)

/-- C149: two blanks before `eV` make `read_dos` raise `ValueError`. -/
theorem C149_dos_two_blanks {flt : Text → Option ℝ} (h0 : flt [] = none) {files : Files} {name a num body : Text} (ha : "EFermi".toList <:+: a)
    (hn : '\n' ∉ a ∧ '\n' ∉ num) (hf : files (name ++ ".Dos.dat".toList) = some (a ++ ' ' :: num ++ "  eV".toList ++ '\n' :: body)) :
    readDos flt files name = .error (.py .valueError) := by
  have h := fermi_last (flt := flt) (a := a ++ ' ' :: num) (num := []) (e := "eV\n".toList) (by decide +kernel) (by simp)
    (ha.trans (List.prefix_append _ _).isInfix)
  rw [if_pos (by decide +kernel), toFloat, h0] at h
  have hhead : (fileLines (a ++ ' ' :: num ++ "  eV".toList ++ '\n' :: body)).headD [] = a ++ ' ' :: num ++ ' ' :: [] ++ ' ' :: "eV\n".toList := by
    rw [fileLines_cons body (by simp [hn])]
    simp
  simp only [readDos, openFile, hf, bind, Except.bind, hhead, h]
  rfl

theorem ex_dos_rows : Rows exFlt " 0.0 0.5 -1.5\n 0.5 7.25 0.0\n".toList ([((0 : ℝ), (1 / 2 : ℝ), (-3 / 2 : ℝ)), (1 / 2, 29 / 4, 0)].map fun p => [p.1, p.2.1, p.2.2]) := by
  have : table (blank " 0.0 0.5 -1.5\n 0.5 7.25 0.0\n".toList) = [["0.0".toList, "0.5".toList, "-1.5".toList], ["0.5".toList, "7.25".toList, "0.0".toList]] := by
    decide +kernel
  rw [Rows, this]
  exact .cons (.cons ex0 (.cons ex05 (.cons ex15 .nil))) (.cons (.cons ex05 (.cons ex7 (.cons ex0 .nil))) .nil)

/-- A header of `dos.x`. -/
example : readDos exFlt (fun _ => some ('#' :: ("  E (eV)   dos(E)     Int dos(E) EFermi =  ".toList ++ ' ' :: "7.25".toList ++ " eV".toList) ++
      '\n' :: " 0.0 0.5 -1.5\n 0.5 7.25 0.0\n".toList)) "Cu".toList =
    .ok (.mat [[0, 1 / 2], [1 / 2, 29 / 4], [-3 / 2, 0]], some (29 / 4)) :=
  C149_dos (pre := "  E (eV)   dos(E)     Int dos(E) EFermi =  ".toList) (num := "7.25".toList) rfl (by decide +kernel) (by decide +kernel) (by decide +kernel) ex7
    (by decide +kernel) ex_dos_rows (by simp)

/-- The header with a blank at its end, and without the Fermi energy. -/
example : readDos exFlt (fun _ => some ('#' :: ("  E (eV)   dos(E)     Int dos(E) EFermi =  ".toList ++ ' ' :: "7.25".toList ++ " eV ".toList) ++
      '\n' :: " 0.0 0.5 -1.5\n 0.5 7.25 0.0\n".toList)) "Cu".toList = .ok (.mat [[0, 1 / 2], [1 / 2, 29 / 4], [-3 / 2, 0]], none) ∧
    readDos exFlt (fun _ => some ('#' :: "  E (eV)   dos(E)     Int dos(E) eV".toList ++ '\n' :: " 0.0 0.5 -1.5\n 0.5 7.25 0.0\n".toList)) "Cu".toList =
      .ok (.mat [[0, 1 / 2], [1 / 2, 29 / 4], [-3 / 2, 0]], none) ∧
    readDos exFlt (fun _ => some ("# EFermi =".toList ++ ' ' :: "7.25".toList ++ "  eV".toList ++ '\n' :: [])) "Cu".toList = .error (.py .valueError) :=
  ⟨C149_dos_hidden (pre := "  E (eV)   dos(E)     Int dos(E) EFermi =  ".toList) (num := "7.25".toList) rfl (by decide +kernel) (by decide +kernel)
    (by decide +kernel) (by decide +kernel) ex_dos_rows (by simp),
   C149_dos_without (h := "  E (eV)   dos(E)     Int dos(E) eV".toList) rfl (by decide +kernel) (by decide +kernel) (by decide +kernel) ex_dos_rows (by simp),
   C149_dos_two_blanks (a := "# EFermi =".toList) (num := "7.25".toList) exNil (by decide +kernel) (by decide +kernel) rfl⟩

/-! ## Dielectric function -/

theorem drop_three {h1 h2 h3 b : Text} (n1 : '\n' ∉ h1) (n2 : '\n' ∉ h2) (n3 : '\n' ∉ h3) :
    (fileLines (h1 ++ '\n' :: (h2 ++ '\n' :: (h3 ++ '\n' :: b)))).drop 3 = fileLines b := by
  rw [fileLines_cons _ n1, fileLines_cons _ n2, fileLines_cons _ n3]
  rfl

/-- A file of `epsilon.x`: three lines, whatever they say, and a table. -/
def EpsFile (flt : Text → Option ℝ) (t : Text) (rows : List (List ℝ)) : Prop :=
  ∃ h1 h2 h3 b, t = h1 ++ '\n' :: (h2 ++ '\n' :: (h3 ++ '\n' :: b)) ∧ '\n' ∉ h1 ∧ '\n' ∉ h2 ∧ '\n' ∉ h3 ∧ '#' ∉ b ∧ Rows flt b rows

theorem loadtxt_eps {flt : Text → Option ℝ} {files : Files} {f t : Text} (hf : files f = some t) {rows : List (List ℝ)} (h : EpsFile flt t rows) {n : ℕ}
    (hr : ∀ r ∈ rows, r.length = n) : loadtxt flt files f 3 false = .ok (squeeze rows) := by
  obtain ⟨h1, h2, h3, b, rfl, n1, n2, n3, hc, hrow⟩ := h
  simp only [loadtxt, openFile, hf, drop_three n1 n2 n3, loadRows_text hc hrow hr, bind, Except.bind]
  rfl

theorem addRows_eq : ∀ {r i : List (ℝ × List ℝ)}, r.length = i.length → ∀ {m : ℕ}, (∀ p ∈ r, p.2.length = m) → (∀ p ∈ i, p.2.length = m) →
    addRows (r.map fun p => p.1 :: p.2) (i.map fun p => p.1 :: p.2) =
      .ok (List.zipWith (fun p q => List.zipWith (fun x y => (⟨x, y⟩ : ℂ)) p.2 q.2) r i)
  | [], [], _, _, _, _ => rfl
  | p :: r, q :: i, h, m, h1, h2 => by
    have ih := addRows_eq (r := r) (i := i) (by simpa using h) (fun p hp => h1 p (List.mem_cons_of_mem _ hp)) (fun p hp => h2 p (List.mem_cons_of_mem _ hp))
    have e : p.2.length = q.2.length := by rw [h1 p List.mem_cons_self, h2 q List.mem_cons_self]
    simp only [List.map_cons, addRows, List.drop_succ_cons, List.drop_zero, addRow, if_pos e, ih, bind, Except.bind]
    rfl

theorem addRows_error : ∀ {r i : List (List ℝ)}, r.length ≠ i.length → ∀ {m : ℕ}, (∀ p ∈ r, p.length = m) → (∀ p ∈ i, p.length = m) →
    addRows r i = .error (.py .valueError)
  | [], [], h, _, _, _ => absurd rfl h
  | [], _ :: _, _, _, _, _ => rfl
  | _ :: _, [], _, _, _, _ => rfl
  | p :: r, q :: i, h, m, h1, h2 => by
    have ih := addRows_error (r := r) (i := i) (by simpa using h) (fun p hp => h1 p (List.mem_cons_of_mem _ hp)) (fun p hp => h2 p (List.mem_cons_of_mem _ hp))
    have e : (p.drop 1).length = (q.drop 1).length := by
      rw [List.length_drop, List.length_drop, h1 p List.mem_cons_self, h2 q List.mem_cons_self]
    simp only [addRows, addRow, if_pos e, ih, bind, Except.bind]

/-- C149: `read_dielectric_function` returns the first column of the file of the real parts, and for each of its rows the numbers `x + iy` with the parts from the
two files. -/
theorem C149_dielectric {flt : Text → Option ℝ} {files : Files} {name tr ti : Text} (hr : files ("epsr_".toList ++ name ++ ".dat".toList) = some tr)
    (hi : files ("epsi_".toList ++ name ++ ".dat".toList) = some ti) {r i : List (ℝ × List ℝ)} (her : EpsFile flt tr (r.map fun p => p.1 :: p.2))
    (hei : EpsFile flt ti (i.map fun p => p.1 :: p.2)) (hlen : r.length = i.length) (h2 : 2 ≤ r.length) {m : ℕ} (hm : m ≠ 0)
    (hmr : ∀ p ∈ r, p.2.length = m) (hmi : ∀ p ∈ i, p.2.length = m) :
    readDielectric flt files name =
      .ok (r.map Prod.fst, List.zipWith (fun p q => List.zipWith (fun x y : ℝ => (x : ℂ) + (y : ℂ) * Complex.I) p.2 q.2) r i) := by
  have l1 : ∀ x ∈ r.map (fun p => p.1 :: p.2), x.length = m + 1 := List.forall_mem_map.2 fun p hp => by rw [List.length_cons, hmr p hp]
  have l2 : ∀ x ∈ i.map (fun p => p.1 :: p.2), x.length = m + 1 := List.forall_mem_map.2 fun p hp => by rw [List.length_cons, hmi p hp]
  have hfun : (fun x y : ℝ => (⟨x, y⟩ : ℂ)) = fun x y : ℝ => (x : ℂ) + y * Complex.I := by
    funext x y
    exact Complex.mk_eq_add_mul_I x y
  have e1 := loadtxt_eps hr her l1
  have e2 := loadtxt_eps hi hei l2
  rw [squeeze_mat (by simpa using h2) (by omega) l1] at e1
  rw [squeeze_mat (by simpa [← hlen] using h2) (by omega) l2] at e2
  have e3 := addRows_eq hlen hmr hmi
  rw [hfun] at e3
  simp only [readDielectric, e1, e2, bind, Except.bind, dielectricSum, e3]
  simp [pure, Except.pure, Function.comp_def]

theorem ex_eps {r : List (List ℝ)} {b : Text} (hc : '#' ∉ b) (h : Rows exFlt b r) : EpsFile exFlt ("#\n#\n#\n".toList ++ b) r :=
  ⟨['#'], ['#'], ['#'], b, rfl, by decide, by decide, by decide, hc, h⟩

/-- Two frequencies with two components. -/
example : readDielectric exFlt (fun f => if f = "epsr_Cu.dat".toList then some ("#\n#\n#\n".toList ++ "0.0 0.5 -1.5\n0.5 7.25 0.0".toList)
      else some ("#\n#\n#\n".toList ++ "0.0 0.5 0.5\n0.5 0.0 7.25\n".toList)) "Cu".toList =
    .ok ([0, 1 / 2], [[((1 / 2 : ℝ) : ℂ) + ((1 / 2 : ℝ) : ℂ) * Complex.I, ((-3 / 2 : ℝ) : ℂ) + ((1 / 2 : ℝ) : ℂ) * Complex.I],
      [((29 / 4 : ℝ) : ℂ) + ((0 : ℝ) : ℂ) * Complex.I, ((0 : ℝ) : ℂ) + ((29 / 4 : ℝ) : ℂ) * Complex.I]]) :=
  C149_dielectric (m := 2) (r := [(0, [1 / 2, -3 / 2]), (1 / 2, [29 / 4, 0])]) (i := [(0, [1 / 2, 1 / 2]), (1 / 2, [0, 29 / 4])])
    (if_pos rfl) (if_neg (by decide +kernel))
    (ex_eps (by decide +kernel) (by
      rw [Rows, show table (blank "0.0 0.5 -1.5\n0.5 7.25 0.0".toList) = [["0.0".toList, "0.5".toList, "-1.5".toList], ["0.5".toList, "7.25".toList, "0.0".toList]] by
        decide +kernel]
      exact .cons (.cons ex0 (.cons ex05 (.cons ex15 .nil))) (.cons (.cons ex05 (.cons ex7 (.cons ex0 .nil))) .nil)))
    (ex_eps (by decide +kernel) (by
      rw [Rows, show table (blank "0.0 0.5 0.5\n0.5 0.0 7.25\n".toList) = [["0.0".toList, "0.5".toList, "0.5".toList], ["0.5".toList, "0.0".toList, "7.25".toList]] by
        decide +kernel]
      exact .cons (.cons ex0 (.cons ex05 (.cons ex05 .nil))) (.cons (.cons ex05 (.cons ex0 (.cons ex7 .nil))) .nil)))
    rfl (by simp) (by norm_num) (by simp) (by simp)

/-- C149: with different numbers of frequencies in the two files `ValueError` is raised. -/
theorem C149_dielectric_lengths {flt : Text → Option ℝ} {files : Files} {name tr ti : Text} (hr : files ("epsr_".toList ++ name ++ ".dat".toList) = some tr)
    (hi : files ("epsi_".toList ++ name ++ ".dat".toList) = some ti) {r i : List (List ℝ)} (her : EpsFile flt tr r) (hei : EpsFile flt ti i)
    (hlen : r.length ≠ i.length) (h2 : 2 ≤ r.length) (h3 : 2 ≤ i.length) {m : ℕ} (hm : m ≠ 1) (hmr : ∀ p ∈ r, p.length = m) (hmi : ∀ p ∈ i, p.length = m) :
    readDielectric flt files name = .error (.py .valueError) := by
  have e1 := loadtxt_eps hr her hmr
  have e2 := loadtxt_eps hi hei hmi
  rw [squeeze_mat h2 hm hmr] at e1
  rw [squeeze_mat h3 hm hmi] at e2
  simp only [readDielectric, e1, e2, bind, Except.bind, dielectricSum, addRows_error hlen hmr hmi]

/-- C149: with one frequency, which is what `dielectric_function(nw=1)` leaves, `IndexError` is raised. -/
theorem C149_dielectric_one {flt : Text → Option ℝ} {files : Files} {name tr ti : Text} (hr : files ("epsr_".toList ++ name ++ ".dat".toList) = some tr)
    (hi : files ("epsi_".toList ++ name ++ ".dat".toList) = some ti) {r i : List ℝ} (her : EpsFile flt tr [r]) (hei : EpsFile flt ti [i]) :
    readDielectric flt files name = .error (.py .indexError) := by
  have e1 := loadtxt_eps (n := r.length) hr her (by simp)
  have e2 := loadtxt_eps (n := i.length) hi hei (by simp)
  have : ∀ l : List ℝ, ∀ rows, squeeze [l] ≠ .mat rows := by
    intro l rows
    match l with
    | [] => simp [squeeze]
    | [x] => simp [squeeze]
    | x :: y :: l => simp [squeeze]
  simp only [readDielectric, e1, e2, bind, Except.bind]
  cases h : squeeze [r] with
  | mat rows => exact absurd h (this r rows)
  | scalar x => rfl
  | vec l => rfl

/-- One frequency; and files of two and three frequencies. -/
example : readDielectric exFlt (fun _ => some ("#\n#\n#\n".toList ++ "0.0 0.5".toList)) "Cu".toList = .error (.py .indexError) ∧
    readDielectric exFlt (fun f => if f = "epsr_Cu.dat".toList then some ("#\n#\n#\n".toList ++ "0.0 0.5\n0.0 0.5".toList)
      else some ("#\n#\n#\n".toList ++ "0.0 0.5\n0.0 0.5\n0.0 0.5".toList)) "Cu".toList = .error (.py .valueError) := by
  have r1 : Numbers exFlt ["0.0".toList, "0.5".toList] [0, 1 / 2] := .cons ex0 (.cons ex05 .nil)
  have t1 : Rows exFlt "0.0 0.5".toList [[0, 1 / 2]] := by
    rw [Rows, show table (blank "0.0 0.5".toList) = [["0.0".toList, "0.5".toList]] by decide +kernel]
    exact .cons r1 .nil
  have t2 : Rows exFlt "0.0 0.5\n0.0 0.5".toList [[0, 1 / 2], [0, 1 / 2]] := by
    rw [Rows, show table (blank "0.0 0.5\n0.0 0.5".toList) = [["0.0".toList, "0.5".toList], ["0.0".toList, "0.5".toList]] by decide +kernel]
    exact .cons r1 (.cons r1 .nil)
  have t3 : Rows exFlt "0.0 0.5\n0.0 0.5\n0.0 0.5".toList [[0, 1 / 2], [0, 1 / 2], [0, 1 / 2]] := by
    rw [Rows, show table (blank "0.0 0.5\n0.0 0.5\n0.0 0.5".toList) = [["0.0".toList, "0.5".toList], ["0.0".toList, "0.5".toList], ["0.0".toList, "0.5".toList]] by
      decide +kernel]
    exact .cons r1 (.cons r1 (.cons r1 .nil))
  refine ⟨C149_dielectric_one rfl rfl (ex_eps ?_ t1) (ex_eps ?_ t1),
    C149_dielectric_lengths (m := 2) (if_pos rfl) (if_neg (by decide +kernel)) (ex_eps ?_ t2) (ex_eps ?_ t3) (by simp) (by simp) (by simp) (by norm_num)
      (by simp) (by simp)⟩
  all_goals decide +kernel

/-! ## Version -/

theorem split_v {c : Char} : ∀ {w : Text}, c ∉ w → splitBy (fun x => x = c) w = [w]
  | [], _ => rfl
  | x :: w, h => by
    have hc : ¬ (x = c) := fun e => h (e ▸ List.mem_cons_self)
    rw [splitBy, split_v fun e => h (List.mem_cons_of_mem _ e), if_neg (by simpa using hc)]

theorem version_line {first line rest : Text} (h1 : '\n' ∉ first) (h2 : '\n' ∉ line) :
    item (splitBy (fun c => c = '\n') (first ++ '\n' :: (line ++ '\n' :: rest))) 1 = .ok line := by
  rw [splitBy_append (by simp), splitBy_append (by simp), split_v h1, split_v h2]
  simp [item]

/-- C149: what `version` returns if the second line of the output names the version between a `v` and "starts". -/
theorem C149_version {first pre ver pad rest more : Text} (h1 : '\n' ∉ first) (hl : '\n' ∉ pre ++ 'v' :: (ver ++ pad) ++ "starts".toList ++ rest)
    (hs : ¬ "starts".toList <:+: pre ++ 'v' :: (ver ++ pad) ++ "start".toList) (hpre : 'v' ∉ pre) (hver : 'v' ∉ ver)
    (hw : ∀ c ∈ ver, isSpace c = false) (hp : ∀ c ∈ pad, c = ' ') :
    version (first ++ '\n' :: (pre ++ 'v' :: (ver ++ pad) ++ "starts".toList ++ rest ++ '\n' :: more)) = .ok ('v' :: ver) := by
  have hpv : 'v' ∉ pad := fun e => absurd (hp _ e) (by decide)
  have hb : before "starts".toList (pre ++ 'v' :: (ver ++ pad) ++ "starts".toList ++ rest) = pre ++ 'v' :: (ver ++ pad) := by
    rw [List.append_assoc]
    refine before_eq _ (fun n hn e => hs ?_) (List.prefix_append _ _)
    generalize pre ++ 'v' :: (ver ++ pad) = a at hn e ⊢
    rw [List.drop_append_of_le_length hn.le] at e
    have hlt : "starts".toList.length ≤ (a.drop n ++ "start".toList).length := by
      have : 0 < (a.drop n).length := by rw [List.length_drop]; omega
      have e5 : "starts".toList.length = 6 := by decide +kernel
      have e6 : "start".toList.length = 5 := by decide +kernel
      rw [List.length_append, e5, e6]
      omega
    have e7 : a.drop n ++ ("starts".toList ++ rest) = (a.drop n ++ "start".toList) ++ ('s' :: rest) := by simp
    rw [e7] at e
    have e8 := List.prefix_of_prefix_length_le e (List.prefix_append _ _) hlt
    have e9 : a.drop n ++ "start".toList <:+ a ++ "start".toList := by
      refine ⟨a.take n, ?_⟩
      rw [← List.append_assoc, List.take_append_drop]
    exact e8.isInfix.trans e9.isInfix
  have hi : item (splitBy (fun c => c = 'v') (pre ++ 'v' :: (ver ++ pad))) 1 = .ok (ver ++ pad) := by
    rw [splitBy_append (by simp), split_v hpre, split_v (by simp [hver, hpv])]
    rfl
  have hst : strip (ver ++ pad) = ver := by
    have := strip_pad (a := []) (w := ver) (b := pad) (by simp) (fun c hc => by rw [hp c hc]; decide) hw
    simpa using this
  have hv := version_line (first := first) (line := pre ++ 'v' :: (ver ++ pad) ++ "starts".toList ++ rest) (rest := more) h1 hl
  simp only [version, hv, bind, Except.bind, hb, hi, hst]
  rfl

/-- C149: if `pw.x` is not found, nothing is printed and `version` raises `IndexError`. -/
theorem C149_version_missing {out : Text} (h : '\n' ∉ out) : version out = .error (.py .indexError) := by
  simp only [version, split_v h, item]
  rfl

/-- The output of `pw.x` and an empty one. -/
example : version "\n     Program PWSCF v.7.2 starts on 1Jan2024\n".toList = .ok "v.7.2".toList ∧ version [] = .error (.py .indexError) :=
  ⟨C149_version (first := []) (pre := "     Program PWSCF ".toList) (ver := ".7.2".toList) (pad := [' ']) (rest := " on 1Jan2024".toList) (more := [])
    (by decide +kernel) (by decide +kernel) (by decide +kernel) (by decide +kernel) (by decide +kernel) (by decide +kernel) (by decide +kernel),
   C149_version_missing (by simp)⟩

end TB.PropsQeOutput
