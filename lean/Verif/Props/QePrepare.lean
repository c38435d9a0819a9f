import Mathlib.Data.List.Basic
import Mathlib.Tactic.Tauto
import Verif.Model.QePrepare
import Verif.Spec.Shell

/-!
# C140: `qe_prepare`
-/

namespace TB.PropsQePrepare
open TB TB.QePrepare TB.Spec.Shell

/-- The commands of a log. -/
def commands (l : List Event) : List Text := l.filterMap fun e => match e with | .run c => some c | _ => none

theorem matches_iff (file : Text) : matches_ file = true ↔ ∃ c p, file = c :: p ∧ safeChar c := by
  cases file with
  | nil => simp [matches_]
  | cons c p =>
    simp only [matches_, Bool.or_eq_true, Bool.and_eq_true, decide_eq_true_eq, beq_iff_eq, safeChar]
    constructor
    · intro h; exact ⟨c, p, rfl, by tauto⟩
    · rintro ⟨c', p', h, h'⟩
      cases h; tauto

theorem fetch_pp (sh : Shell) (file : Text) (w : World) : (fetch sh file w).ppFiles = w.ppFiles := by
  unfold fetch
  split
  · rfl
  · split
    · rfl
    · dsimp only; split <;> rfl

theorem fetch_dirs (sh : Shell) (file : Text) (w : World) : (fetch sh file w).dirs = w.dirs := by
  unfold fetch
  split
  · rfl
  · split
    · rfl
    · dsimp only; split <;> rfl

theorem fetch_commands (sh : Shell) (file : Text) (w : World) :
    commands (fetch sh file w).log = commands w.log ++ (if w.pseudo file = false ∧ matches_ file = true then [command file] else []) ∧
    (fetch sh file w).pseudo = if w.pseudo file = false ∧ matches_ file = true then sh.files (command file) w.pseudo else w.pseudo := by
  unfold fetch
  by_cases h : w.pseudo file
  · simp [h]
  · by_cases hm : matches_ file
    · rw [if_neg h, if_neg (by simp [hm])]
      dsimp only
      split <;> simp [h, hm, commands]
    · rw [if_neg h, if_pos (by simpa using hm)]
      simp [h, hm, commands]

/-- The names of the files, with the missing ones filled in. -/
def filled (d : Dict) : List (Text × Text) := d.map fun x => (x.1, x.2.getD (x.1 ++ ".rel-pbesol-n-kjpaw_psl.1.0.0.UPF".toList))

theorem setItem_append (name file : Text) (a b : Dict) (h : ∀ x ∈ a, x.1 ≠ name) : setItem name file (a ++ b) = a ++ setItem name file b := by
  induction a with
  | nil => rfl
  | cons x a ih =>
    obtain ⟨n, f⟩ := x
    rw [List.cons_append, setItem, if_neg (h (n, f) (by simp)), ih fun y hy => h y (by simp [hy]), List.cons_append]

theorem loop_pp (sh : Shell) : ∀ (l a : Dict) (w : World), w.ppFiles = a ++ l → ((a ++ l).map Prod.fst).Nodup →
    (loop sh l w).ppFiles = a ++ l.map (fun x => (x.1, some (x.2.getD (x.1 ++ ".rel-pbesol-n-kjpaw_psl.1.0.0.UPF".toList)))) ∧
    (loop sh l w).dirs = w.dirs
  | [], a, w, h, _ => by simp [loop, h]
  | (name, none) :: l, a, w, h, hn => by
    have hname : ∀ x ∈ a, x.1 ≠ name := by
      intro x hx he
      rw [List.map_append, List.nodup_append] at hn
      exact hn.2.2 x.1 (List.mem_map_of_mem hx) name (by simp) he
    have := loop_pp sh l (a ++ [(name, some (defaultFile name))])
      (fetch sh (defaultFile name) { w with ppFiles := setItem name (defaultFile name) w.ppFiles })
      (by rw [fetch_pp, h]; dsimp only; rw [setItem_append _ _ _ _ hname, setItem, if_pos rfl]; simp) (by simpa using hn)
    rw [loop]
    refine ⟨this.1.trans ?_, this.2.trans (by rw [fetch_dirs])⟩
    simp [defaultFile]
  | (name, some file) :: l, a, w, h, hn => by
    have := loop_pp sh l (a ++ [(name, some file)]) (fetch sh file w) (by rw [fetch_pp, h]; simp) (by simpa using hn)
    rw [loop]
    refine ⟨this.1.trans ?_, this.2.trans (by rw [fetch_dirs])⟩
    simp

/-- The commands for a list of files, with the files of the disk as state. -/
def expected (sh : Shell) : List Text → (Text → Bool) → List Text
  | [], _ => []
  | f :: l, files =>
    if files f = false ∧ matches_ f = true then command f :: expected sh l (sh.files (command f) files) else expected sh l files

theorem loop_commands (sh : Shell) : ∀ (l : Dict) (w : World),
    commands (loop sh l w).log = commands w.log ++ expected sh ((filled l).map Prod.snd) w.pseudo
  | [], w => by simp [loop, filled, expected]
  | (name, none) :: l, w => by
    rw [loop, loop_commands sh l]
    have h := fetch_commands sh (defaultFile name) { w with ppFiles := setItem name (defaultFile name) w.ppFiles }
    rw [h.1, h.2]
    dsimp only
    have e : (filled ((name, none) :: l)).map Prod.snd = defaultFile name :: (filled l).map Prod.snd := rfl
    rw [e, expected]
    split <;> simp
  | (name, some file) :: l, w => by
    rw [loop, loop_commands sh l]
    have h := fetch_commands sh file w
    rw [h.1, h.2]
    have e : (filled ((name, some file) :: l)).map Prod.snd = file :: (filled l).map Prod.snd := rfl
    rw [e, expected]
    split <;> simp

theorem ensure_props (name : Text) (w : World) : (ensureDir name w).dirs name = true ∧ (∀ n, w.dirs n = true → (ensureDir name w).dirs n = true) ∧
    (ensureDir name w).ppFiles = w.ppFiles ∧ (ensureDir name w).pseudo = w.pseudo ∧ commands (ensureDir name w).log = commands w.log := by
  unfold ensureDir
  split
  · rename_i h; exact ⟨h, fun _ h => h, rfl, rfl, rfl⟩
  · simp only [beq_self_eq_true, Bool.true_or, true_and]
    refine ⟨fun n h => by simp [h], by simp [commands]⟩

/-- The dictionary used: the argument, or the module variable. -/
def used (arg : Option Dict) (w : World) : Dict := arg.getD w.ppFiles

theorem start_props (sh : Shell) (arg : Option Dict) (w : World) : ∃ w', qePrepare sh arg w = loop sh (used arg w) w' ∧ w'.ppFiles = used arg w ∧
    w'.pseudo = w.pseudo ∧ commands w'.log = commands w.log ∧ w'.dirs "./qe-data".toList = true ∧ w'.dirs "./pseudo".toList = true := by
  obtain ⟨a1, a2, a3, a4, a5⟩ := ensure_props "./qe-data".toList w
  obtain ⟨b1, b2, b3, b4, b5⟩ := ensure_props "./pseudo".toList (ensureDir "./qe-data".toList w)
  cases arg with
  | none =>
    refine ⟨ensureDir "./pseudo".toList (ensureDir "./qe-data".toList w), ?_, b3.trans a3, b4.trans a4, b5.trans a5, b2 _ a1, b1⟩
    change loop sh (ensureDir "./pseudo".toList (ensureDir "./qe-data".toList w)).ppFiles
      (ensureDir "./pseudo".toList (ensureDir "./qe-data".toList w)) = _
    rw [b3, a3]
    rfl
  | some d =>
    exact ⟨{ ensureDir "./pseudo".toList (ensureDir "./qe-data".toList w) with ppFiles := d }, rfl, rfl, b4.trans a4, b5.trans a5, b2 _ a1, b1⟩

/-- C140.  Afterwards both directories exist, and the module variable is the dictionary that was given (or the old one) with the same keys in
the same order, its values kept, and `None` replaced by the default name. -/
theorem C140_dictionary (sh : Shell) (arg : Option Dict) (w : World) (hn : ((arg.getD w.ppFiles).map Prod.fst).Nodup) :
    let w' := qePrepare sh arg w
    w'.dirs "./qe-data".toList = true ∧ w'.dirs "./pseudo".toList = true ∧
    w'.ppFiles = (arg.getD w.ppFiles).map fun x => (x.1, some (match x.2 with
      | some f => f
      | none => x.1 ++ ".rel-pbesol-n-kjpaw_psl.1.0.0.UPF".toList)) := by
  intro w'
  obtain ⟨v, h1, h2, h3, h4, h5, h6⟩ := start_props sh arg w
  have h := loop_pp sh (used arg w) [] v h2 hn
  change (qePrepare sh arg w).dirs _ = _ ∧ (qePrepare sh arg w).dirs _ = _ ∧ (qePrepare sh arg w).ppFiles = _
  rw [h1, h.1, h.2]
  refine ⟨h5, h6, ?_⟩
  rw [List.nil_append]
  refine List.map_congr_left fun x _ => ?_
  obtain ⟨n, f⟩ := x
  cases f <;> rfl

example : (([("Cu".toList, none), ("H".toList, some "H.UPF".toList)] : Dict).map Prod.fst).Nodup := by decide

/-- C140.  Without missing files nothing is run. -/
theorem C140_nothing_missing (sh : Shell) (arg : Option Dict) (w : World)
    (h : ∀ x ∈ arg.getD w.ppFiles, w.pseudo (x.2.getD (x.1 ++ ".rel-pbesol-n-kjpaw_psl.1.0.0.UPF".toList)) = true) :
    commands (qePrepare sh arg w).log = commands w.log := by
  obtain ⟨v, h1, h2, h3, h4, h5, h6⟩ := start_props sh arg w
  rw [h1, loop_commands, h3, h4]
  have key : ∀ l : List Text, (∀ f ∈ l, w.pseudo f = true) → expected sh l w.pseudo = [] := by
    intro l
    induction l with
    | nil => intro _; rfl
    | cons f l ih => intro hl; rw [expected, if_neg (by simp [hl f (by simp)]), ih fun f hf => hl f (by simp [hf])]
  rw [key, List.append_nil]
  intro f hf
  simp only [filled, List.map_map, List.mem_map, Function.comp] at hf
  obtain ⟨x, hx, rfl⟩ := hf
  exact h x hx

/-- C140.  Every command is the download of a file of the dictionary whose first character is one of the listed ones. -/
theorem C140_commands (sh : Shell) (arg : Option Dict) (w : World) (hw : commands w.log = []) :
    ∀ c ∈ commands (qePrepare sh arg w).log, ∃ x ∈ arg.getD w.ppFiles, ∃ a p,
      x.2.getD (x.1 ++ ".rel-pbesol-n-kjpaw_psl.1.0.0.UPF".toList) = a :: p ∧ safeChar a ∧
      c = "wget https://pseudopotentials.quantum-espresso.org/upf_files/".toList ++ (a :: p) := by
  obtain ⟨v, h1, h2, h3, h4, h5, h6⟩ := start_props sh arg w
  rw [h1, loop_commands, h3, h4, hw, List.nil_append]
  have key : ∀ (l : List Text) (files : Text → Bool), ∀ c ∈ expected sh l files, ∃ f ∈ l, matches_ f = true ∧ c = command f := by
    intro l
    induction l with
    | nil => intro _ c hc; simp [expected] at hc
    | cons f l ih =>
      intro files c hc
      rw [expected] at hc
      split at hc
      · rename_i hf
        rcases List.mem_cons.1 hc with rfl | hc
        · exact ⟨f, by simp, hf.2, rfl⟩
        · obtain ⟨g, hg, h⟩ := ih _ c hc
          exact ⟨g, by simp [hg], h⟩
      · obtain ⟨g, hg, h⟩ := ih _ c hc
        exact ⟨g, by simp [hg], h⟩
  intro c hc
  obtain ⟨f, hf, hm, rfl⟩ := key _ _ c hc
  simp only [filled, List.map_map, List.mem_map, Function.comp] at hf
  obtain ⟨x, hx, rfl⟩ := hf
  obtain ⟨a, p, he, hs⟩ := (matches_iff _).1 hm
  exact ⟨x, hx, a, p, he, hs, congrArg (List.append "wget https://pseudopotentials.quantum-espresso.org/upf_files/".toList) he⟩

/-- C140.  The check of the file name looks at its first character only: every text after it reaches the shell. -/
theorem C140_defect_injection (sh : Shell) (w : World) (name : Text) (a : Char) (payload : Text) (ha : safeChar a)
    (hmiss : w.pseudo (a :: payload) = false) :
    ("wget https://pseudopotentials.quantum-espresso.org/upf_files/".toList ++ (a :: payload)) ∈
      commands (qePrepare sh (some [(name, some (a :: payload))]) w).log := by
  obtain ⟨v, h1, h2, h3, h4, h5, h6⟩ := start_props sh (some [(name, some (a :: payload))]) w
  rw [h1, loop_commands, h3]
  have e : (filled (used (some [(name, some (a :: payload))]) w)).map Prod.snd = [a :: payload] := rfl
  rw [e, expected, if_pos ⟨hmiss, (matches_iff _).2 ⟨a, payload, rfl, ha⟩⟩]
  rw [show "wget https://pseudopotentials.quantum-espresso.org/upf_files/".toList ++ (a :: payload) = command (a :: payload) from rfl]
  generalize command (a :: payload) = c
  exact List.mem_append_right _ List.mem_cons_self

/-- A name that is not safe, on an empty disk. -/
example : ¬ safe ['C', 'u', ';', 'l', 's'] ∧ ∀ sh, ("wget https://pseudopotentials.quantum-espresso.org/upf_files/".toList ++ ['C', 'u', ';', 'l', 's']) ∈
    commands (qePrepare sh (some [(['C', 'u'], some ['C', 'u', ';', 'l', 's'])]) ⟨fun _ => false, fun _ => false, [], []⟩).log := by
  refine ⟨fun h => ?_, fun sh => C140_defect_injection sh _ _ 'C' ['u', ';', 'l', 's'] (by unfold safeChar; decide) rfl⟩
  have : safeChar ';' := h.2 ';' (by simp)
  unfold safeChar at this
  revert this
  decide

end TB.PropsQePrepare
