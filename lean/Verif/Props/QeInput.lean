import Mathlib.Tactic.NormNum
import Mathlib.Tactic.Positivity
import Verif.Lemmas.Namelist

/-!
# C148: what the methods of `QECrystal` which run Quantum Espresso write and execute
-/

namespace TB.PropsQeInput
open TB TB.Cards TB.Spec.Cards TB.Spec.Namelist TB.QeInput TB.PropsCards TB.NamelistLemmas

/-! ## Specification -/

/-- A pair of a key and a value. -/
def Spec.kv (k : String) (v : Text) : Text × Text := (k.toList, v)

/-- Printed numbers are words without comma. -/
def Spec.Plain (F : Fmt) : Prop := Good F ∧ (∀ x, ',' ∉ F.num x) ∧ ∀ z, ',' ∉ F.nat z

/-- A name without blank, line break, comma, which starts neither with a dot nor with a slash. -/
def Spec.Name (n : Text) : Prop := Word n ∧ ',' ∉ n ∧ n.head? ≠ some '.' ∧ n.head? ≠ some '/'

/-- A crystal as the constructor leaves it; every element has the mass `m` and the pseudopotential `p`; `order` is the set of elements. -/
structure Spec.Complete (E : Env) (c : Crystal) (m : Text → ℝ) (p : Text → Text) : Prop where
  unit : Word c.cell.unit
  types : ∀ t ∈ c.cell.types, Word t
  count : c.cell.types.length = c.cell.basis.length
  basis : ∀ b ∈ c.cell.basis, b.length = 3
  order : E.order.Nodup ∧ ∀ t, t ∈ E.order ↔ t ∈ c.cell.types
  tables : ∀ s ∈ c.cell.types, E.mass s = some (m s) ∧ E.pp s = some (p s) ∧ Word (p s)

/-- `mpi_run` is empty or ends with a blank. -/
def Spec.Mpi (t : Text) : Prop := t = [] ∨ ∃ s, t = s ++ [' ']

/-- The cards of the crystal: cell, species, positions. -/
def Spec.crystal (E : Env) (c : Crystal) (m : Text → ℝ) (p : Text → Text) : List (List Text) :=
  [["CELL_PARAMETERS".toList, c.cell.unit]] ++
    [[E.F.num (c.cell.A 0 0), E.F.num (c.cell.A 1 0), E.F.num (c.cell.A 2 0)], [E.F.num (c.cell.A 0 1), E.F.num (c.cell.A 1 1), E.F.num (c.cell.A 2 1)],
      [E.F.num (c.cell.A 0 2), E.F.num (c.cell.A 1 2), E.F.num (c.cell.A 2 2)]] ++
    [["ATOMIC_SPECIES".toList]] ++ E.order.map (fun s => [s, E.F.num (m s), p s]) ++
    [["ATOMIC_POSITIONS".toList, "crystal".toList]] ++
    (c.cell.basis.zip c.cell.types).map (fun a => [a.2, E.F.num (a.1.getD 0 0), E.F.num (a.1.getD 1 0), E.F.num (a.1.getD 2 0)])

/-- One file `{name}.{suffix}.in` was written, one program was run, which reads this file; nothing else happened. -/
def Spec.Ran (E : Env) (c : Crystal) (program suffix : String) (t : Text) (w w' : World) : Prop :=
  w'.files (c.name ++ '.' :: suffix.toList ++ ".in".toList) = some t ∧
  (∀ f, f ≠ c.name ++ '.' :: suffix.toList ++ ".in".toList → w'.files f = w.files f) ∧
  ∃ cmd, w'.commands = w.commands ++ [cmd] ∧
    words cmd = words E.mpiRun ++ [program.toList ++ (if E.win then [] else ".x".toList), "-nk".toList, E.F.nat c.nk, "-nd".toList, E.F.nat c.nd, "-nt".toList,
      E.F.nat c.nt, "-in".toList, c.name ++ '.' :: suffix.toList ++ ".in".toList, "|".toList, "tee".toList, c.name ++ '.' :: suffix.toList ++ ".out".toList]

/-- `ibrav`, number of atoms, number of species. -/
def Spec.sizes (E : Env) (c : Crystal) : List (Text × Text) :=
  [Spec.kv "ibrav" (E.F.nat 0), Spec.kv "nat" (E.F.nat c.cell.basis.length), Spec.kv "ntyp" (E.F.nat c.cell.types.dedup.length)]

open Classical in
/-- The occupations. -/
noncomputable def Spec.occupations (E : Env) (c : Crystal) : List (Text × Text) :=
  [Spec.kv "occupations" "'smearing'".toList, Spec.kv "smearing" (if c.T = 0 then "'marzari-vanderbilt'".toList else "'fermi-dirac'".toList),
    Spec.kv "degauss" (E.F.num (if c.T = 0 then 0.02 else c.T * 6.3336231269e-6))]

/-- Spin-orbit coupling. -/
def Spec.spin (c : Crystal) : List (Text × Text) :=
  if c.relativistic then [Spec.kv "lspinorb" ".true.".toList, Spec.kv "noncolin" ".true.".toList] else []

/-- The first settings of `&control`. -/
def Spec.control (c : Crystal) (kind : String) : List (Text × Text) :=
  [Spec.kv "calculation" ("'".toList ++ kind.toList ++ "'".toList), Spec.kv "pseudo_dir" "'./pseudo/'".toList, Spec.kv "outdir" "'./qe-data/'".toList,
    Spec.kv "prefix" ("'".toList ++ c.name ++ "'".toList)]

/-! ## Lines -/

theorem quote_eq (v : Text) : "'".toList ++ v ++ "'".toList = quoted v := rfl

theorem num_val {F : Fmt} (hF : Spec.Plain F) (x : ℝ) : Val (F.num x) (F.num x) := val_word (hF.1.1 x) (hF.2.1 x)

theorem nat_val {F : Fmt} (hF : Spec.Plain F) (z : ℤ) : Val (F.nat z) (F.nat z) := val_word (hF.1.2 z) (hF.2.2 z)

theorem name_val {n : Text} (h : Spec.Name n) : Val (quoted n) (quoted n) := val_quoted h.1.2.1 h.1.2.2 h.2.1

theorem name_ext_val {n : Text} (h : Spec.Name n) (e : Text) (he : ' ' ∉ e ∧ '\n' ∉ e ∧ ',' ∉ e) : Val (quoted (n ++ e)) (quoted (n ++ e)) := by
  refine val_quoted ?_ ?_ ?_ <;> rw [List.mem_append, not_or]
  · exact ⟨h.1.2.1, he.1⟩
  · exact ⟨h.1.2.2, he.2.1⟩
  · exact ⟨h.2.1, he.2.2⟩

theorem order_length {E : Env} {c : Crystal} {m : Text → ℝ} {p : Text → Text} (h : Spec.Complete E c m p) : E.order.length = c.cell.types.dedup.length := by
  refine List.Perm.length_eq ((List.perm_ext_iff_of_nodup h.order.1 (List.nodup_dedup _)).2 fun t => ?_)
  rw [h.order.2 t, List.mem_dedup]

theorem reads_system {E : Env} {c : Crystal} {m : Text → ℝ} {p : Text → Text} (hF : Spec.Plain E.F) (h : Spec.Complete E c m p) :
    Reads (systemLine E c) (Spec.sizes E c) := by
  unfold systemLine Spec.sizes Spec.kv
  rw [order_length h]
  exact reads_asg (by decide +kernel) (val_blank (nat_val hF _)) (rest_asg (by decide +kernel) (nat_val hF _)
    (rest_asg (by decide +kernel) (val_blank (nat_val hF _)) (rest_empty rest_nil)))

theorem reads_cutoff {E : Env} {c : Crystal} (hF : Spec.Plain E.F) : Reads (cutoffLine E c) [Spec.kv "ecutwfc" (E.F.num c.cutoff)] :=
  reads_asg (by decide +kernel) (val_blank (num_val hF _)) (rest_empty rest_nil)

theorem reads_smearing {E : Env} {c : Crystal} (hF : Spec.Plain E.F) (comma : Bool) : Reads (smearingLine E c comma) (Spec.occupations E c) := by
  classical
  unfold smearingLine Spec.occupations Spec.kv
  refine reads_asg (by decide +kernel) (by decide +kernel) (rest_asg (by decide +kernel) ?_ (rest_asg (by decide +kernel) (num_val hF _) ?_))
  · by_cases hT : c.T = 0
    · simp only [if_pos hT]
      decide +kernel
    · simp only [if_neg hT]
      decide +kernel
  · cases comma
    · exact rest_nil
    · exact rest_empty rest_nil

theorem reads_spin (c : Crystal) : Reads (spinLine c) (Spec.spin c) := by
  unfold spinLine Spec.spin
  cases c.relativistic
  · decide +kernel
  · decide +kernel

theorem reads_kind {kind : String} (h : ' ' ∉ kind.toList ∧ '\n' ∉ kind.toList ∧ ',' ∉ kind.toList) :
    Reads [asg "calculation".toList (quoted kind.toList), []] [Spec.kv "calculation" (quoted kind.toList)] :=
  reads_asg (by decide +kernel) (val_quoted h.1 h.2.1 h.2.2) (rest_empty rest_nil)

theorem reads_prefix {c : Crystal} (h : Spec.Name c.name) : Reads [asg "prefix".toList (quoted c.name), []] [Spec.kv "prefix" (quoted c.name)] :=
  reads_asg (by decide +kernel) (name_val h) (rest_empty rest_nil)

theorem forall2_append {α β : Type} {R : α → β → Prop} {a a' : List α} {b b' : List β} (h : List.Forall₂ R a b) (h' : List.Forall₂ R a' b') :
    List.Forall₂ R (a ++ a') (b ++ b') := List.rel_append h h'

theorem reads_control {c : Crystal} (hn : Spec.Name c.name) {kind : String} (h : ' ' ∉ kind.toList ∧ '\n' ∉ kind.toList ∧ ',' ∉ kind.toList)
    {more : List (List Text)} {o : List (List (Text × Text))} (hm : List.Forall₂ Reads more o) :
    List.Forall₂ Reads (controlHead c kind.toList ++ more) ([Spec.kv "calculation" (quoted kind.toList)] :: [Spec.kv "pseudo_dir" "'./pseudo/'".toList] ::
      [Spec.kv "outdir" "'./qe-data/'".toList] :: [Spec.kv "prefix" (quoted c.name)] :: o) :=
  .cons (reads_kind h) (.cons (by decide +kernel) (.cons (by decide +kernel) (.cons (reads_prefix hn) hm)))

/-! ## Files and commands -/

theorem strip_name {t : Text} (h1 : t.head? ≠ some '.') (h2 : t.head? ≠ some '/') (b : Bool) : QeInput.strip b t = t := by
  unfold QeInput.strip
  split
  · simp at h1
  · simp at h2
  · rfl

theorem path_name {n : Text} (h : Spec.Name n) (e : Text) : path (n ++ e) = n ++ e ∧ path ("./".toList ++ (n ++ e)) = n ++ e := by
  obtain ⟨a, b, rfl⟩ := List.exists_cons_of_ne_nil h.1.1
  have h1 : ((a :: b) ++ e).head? ≠ some '.' := h.2.2.1
  have h2 : ((a :: b) ++ e).head? ≠ some '/' := h.2.2.2
  exact ⟨strip_name h1 h2 _, (show QeInput.strip false ('.' :: '/' :: ((a :: b) ++ e)) = _ from strip_name h1 h2 true)⟩

theorem words_append (a b : List Char) : words (a ++ ' ' :: b) = words a ++ words b := by
  rw [words, splitAt_append, List.filter_append]
  rfl

theorem words_mpi {m : Text} (h : Spec.Mpi m) (b : List Char) : words (m ++ b) = words m ++ words b := by
  rcases h with rfl | ⟨s, rfl⟩
  · rw [List.nil_append, show words [] = [] by simp [words, splitAt], List.nil_append]
  · rw [List.append_assoc, show [' '] ++ b = ' ' :: b from rfl, words_append]
    congr 1
    rw [show s ++ [' '] = s ++ ' ' :: [] from rfl, words_append, show words [] = [] by simp [words, splitAt], List.append_nil]

theorem word_append {a b : Text} (ha : Word a) (hb : ' ' ∉ b ∧ '\n' ∉ b) : Word (a ++ b) := by
  refine ⟨by simp [ha.1], ?_, ?_⟩ <;> rw [List.mem_append, not_or]
  · exact ⟨ha.2.1, hb.1⟩
  · exact ⟨ha.2.2, hb.2⟩

theorem exe_eq (E : Env) : exe E = if E.win then [] else ".x".toList := rfl

theorem exe_ok (E : Env) : ' ' ∉ exe E ∧ '\n' ∉ exe E := by
  rw [exe_eq]
  cases E.win <;> decide +kernel

theorem run_words (E : Env) (c : Crystal) (hF : Spec.Plain E.F) (hn : Spec.Name c.name) (hm : Spec.Mpi E.mpiRun) (program suffix : String)
    (hp : Word program.toList) (hs : ' ' ∉ suffix.toList ∧ '\n' ∉ suffix.toList) : words (runCommand E c program.toList suffix.toList) =
      words E.mpiRun ++ [program.toList ++ exe E, "-nk".toList, E.F.nat c.nk, "-nd".toList, E.F.nat c.nd, "-nt".toList,
      E.F.nat c.nt, "-in".toList, c.name ++ '.' :: suffix.toList ++ ".in".toList, "|".toList, "tee".toList, c.name ++ '.' :: suffix.toList ++ ".out".toList] := by
  have e : runCommand E c program.toList suffix.toList = E.mpiRun ++ ((program.toList ++ exe E) ++ ' ' :: ("-nk".toList ++ ' ' :: (E.F.nat c.nk ++ ' ' ::
      ("-nd".toList ++ ' ' :: (E.F.nat c.nd ++ ' ' :: ("-nt".toList ++ ' ' :: (E.F.nat c.nt ++ ' ' :: ("-in".toList ++ ' ' ::
      ((c.name ++ '.' :: suffix.toList ++ ".in".toList) ++ ' ' :: ("|".toList ++ ' ' :: ("tee".toList ++ ' ' ::
      (c.name ++ '.' :: suffix.toList ++ ".out".toList)))))))))))) := by
    simp [runCommand, List.append_assoc]
  have hsuf : ∀ x : Text, ' ' ∉ x ∧ '\n' ∉ x → Word (c.name ++ '.' :: suffix.toList ++ x) := by
    intro x hx
    refine word_append (word_append hn.1 ?_) hx
    simpa using hs
  rw [e, words_mpi hm, words_cons (word_append hp (exe_ok E)), words_cons (word_lit (by decide +kernel)), words_cons (hF.1.2 _), words_cons (word_lit (by decide +kernel)),
    words_cons (hF.1.2 _), words_cons (word_lit (by decide +kernel)), words_cons (hF.1.2 _), words_cons (word_lit (by decide +kernel)), words_cons (hsuf _ (by decide +kernel)),
    words_cons (word_lit (by decide +kernel)), words_cons (word_lit (by decide +kernel)), words_one (hsuf _ (by decide +kernel))]

theorem job_ok (E : Env) (c : Crystal) (hF : Spec.Plain E.F) (hn : Spec.Name c.name) (hm : Spec.Mpi E.mpiRun) (pre : Text) (hpre : pre = [] ∨ pre = "./".toList)
    (program suffix : String) (hp : Word program.toList) (hs : ' ' ∉ suffix.toList ∧ '\n' ∉ suffix.toList) (t : Text) (w : World) :
    ∃ w', job E c pre program.toList suffix.toList (.ok t) w = (w', .ok ()) ∧ Spec.Ran E c program suffix t w w' := by
  have hpath : path (pre ++ c.name ++ '.' :: suffix.toList ++ ".in".toList) = c.name ++ '.' :: suffix.toList ++ ".in".toList := by
    rcases hpre with rfl | rfl
    · rw [List.nil_append, List.append_assoc]
      exact (path_name hn _).1
    · rw [List.append_assoc, List.append_assoc]
      rw [(path_name hn _).2, List.append_assoc]
  refine ⟨_, rfl, ?_, ?_, _, rfl, run_words E c hF hn hm program suffix hp hs⟩
  · simp only [hpath, if_true]
  · intro f hf
    simp only [hpath, if_neg hf]

/-- `raise` -/
theorem job_error (E : Env) (c : Crystal) (hn : Spec.Name c.name) (pre : Text) (hpre : pre = [] ∨ pre = "./".toList)
    (program suffix : Text) (e : Err) (w : World) :
    ∃ w', job E c pre program suffix (.error e) w = (w', .error e) ∧ w'.commands = w.commands ∧
      w'.files (c.name ++ '.' :: suffix ++ ".in".toList) = some [] ∧ ∀ f, f ≠ c.name ++ '.' :: suffix ++ ".in".toList → w'.files f = w.files f := by
  have hpath : path (pre ++ c.name ++ '.' :: suffix ++ ".in".toList) = c.name ++ '.' :: suffix ++ ".in".toList := by
    rcases hpre with rfl | rfl
    · rw [List.nil_append, List.append_assoc]
      exact (path_name hn _).1
    · rw [List.append_assoc, List.append_assoc]
      rw [(path_name hn _).2, List.append_assoc]
  refine ⟨_, rfl, rfl, ?_, ?_⟩
  · simp only [hpath, if_true]
  · intro f hf
    simp only [hpath, if_neg hf]

/-- The text of a file for `pw.x`: pairs and cards. -/
theorem pw_ok (E : Env) (c : Crystal) (hF : Spec.Plain E.F) {m : Text → ℝ} {p : Text → Text} (h : Spec.Complete E c m p) (start : List Text)
    (gs : List Group) (k : Text) : ∃ r, pwText E c start gs k = .ok (namelists start ind4 gs ++ r) ∧ table r = Spec.crystal E c m p ++ table k := by
  obtain ⟨t, ht, htab, _⟩ := C132_crystal E.F hF.1 E.mass E.pp E.order c.cell h.unit h.types h.count h.basis h.order m p h.tables
  refine ⟨t ++ nl ++ (k ++ nl), ?_, ?_⟩
  · rw [pwText, ht]
    rfl
  · rw [show t ++ nl ++ (k ++ nl) = t ++ '\n' :: (k ++ ['\n']) by simp [nl], table_append, table_last, htab]
    rfl

/-! ## Files for `pw.x` -/

theorem ind4_ok : squeeze ind4 = [] ∧ '\n' ∉ ind4 := by decide +kernel

theorem start_nil : ∀ l ∈ ([] : List Text), l = [] := by simp

theorem start_line : ∀ l ∈ ([[]] : List Text), l = [] := by simp

theorem scf_reads {E : Env} {c : Crystal} {m : Text → ℝ} {p : Text → Text} (hF : Spec.Plain E.F) (hn : Spec.Name c.name) (h : Spec.Complete E c m p) :
    AllRead (scfGroups E c)
      [[Spec.kv "calculation" (quoted "scf".toList)] :: [Spec.kv "pseudo_dir" "'./pseudo/'".toList] :: [Spec.kv "outdir" "'./qe-data/'".toList] ::
        [Spec.kv "prefix" (quoted c.name)] :: [[Spec.kv "tstress" ".true.".toList], [Spec.kv "tprnfor" ".true.".toList], [Spec.kv "disk_io" "'low'".toList]],
      [Spec.sizes E c, [Spec.kv "ecutwfc" (E.F.num c.cutoff)], Spec.occupations E c, Spec.spin c],
      [[Spec.kv "diagonalization" "'david'".toList], [Spec.kv "conv_thr" "1.0e-8".toList], [Spec.kv "electron_maxstep" "100".toList],
        [Spec.kv "mixing_beta" "0.7".toList]]] := by
  refine .cons (group_reads (by decide +kernel) ?_) (.cons (group_reads (by decide +kernel) ?_) (.cons (group_reads (by decide +kernel) ?_) .nil))
  · refine reads_control hn (by decide +kernel) ?_
    exact .cons (by decide +kernel) (.cons (by decide +kernel) (.cons (by decide +kernel) .nil))
  · exact .cons (reads_system hF h) (.cons (reads_cutoff hF) (.cons (reads_smearing hF true) (.cons (reads_spin c) .nil)))
  · exact .cons (by decide +kernel) (.cons (by decide +kernel) (.cons (by decide +kernel) (.cons (by decide +kernel) .nil)))

/-- **C148.** `scf` writes `{name}.scf.in` and runs `pw.x` on it; read back, the file has exactly these settings, cards and the grid. -/
theorem C148_scf (E : Env) (c : Crystal) (hF : Spec.Plain E.F) (hn : Spec.Name c.name) (hm : Spec.Mpi E.mpiRun) (m : Text → ℝ) (p : Text → Text)
    (h : Spec.Complete E c m p) (size : ℤ) (size2 size3 : Option ℤ) (w : World) :
    ∃ t w', scf E c size size2 size3 w = (w', .ok ()) ∧ Spec.Ran E c "pw" "scf" t w w' ∧
      settings "control".toList t = Spec.control c "scf" ++
        [Spec.kv "tstress" ".true.".toList, Spec.kv "tprnfor" ".true.".toList, Spec.kv "disk_io" "'low'".toList] ∧
      settings "system".toList t = Spec.sizes E c ++ [Spec.kv "ecutwfc" (E.F.num c.cutoff)] ++ Spec.occupations E c ++ Spec.spin c ∧
      settings "electrons".toList t = [Spec.kv "diagonalization" "'david'".toList, Spec.kv "conv_thr" "1.0e-8".toList,
        Spec.kv "electron_maxstep" "100".toList, Spec.kv "mixing_beta" "0.7".toList] ∧
      cards "electrons".toList t = Spec.crystal E c m p ++ [["K_POINTS".toList, "(automatic)".toList],
        [E.F.nat size, E.F.nat (size2.getD size), E.F.nat (size3.getD size), ['0'], ['0'], ['0']]] := by
  obtain ⟨r, hr, htab⟩ := pw_ok E c hF h [] (scfGroups E c) (kGrid E.F size (some (size2.getD size)) (some (size3.getD size)))
  obtain ⟨w', hw, hran⟩ := job_ok E c hF hn hm [] (Or.inl rfl) "pw" "scf" (word_lit (by decide +kernel)) (by decide +kernel)
    (namelists [] ind4 (scfGroups E c) ++ r) w
  have hA := scf_reads hF hn h
  refine ⟨_, w', ?_, hran, ?_, ?_, ?_, ?_⟩
  · rw [scf, hr]
    exact hw
  · exact settings_at start_nil ind4_ok ["control".toList, "system".toList, "electrons".toList] rfl hA 0 (by decide +kernel) (by decide +kernel) r
  · rw [settings_at start_nil ind4_ok ["control".toList, "system".toList, "electrons".toList] rfl hA 1 (by decide +kernel) (by decide +kernel) r]
    simp only [List.getD_cons_succ, List.getD_cons_zero, List.flatten_cons, List.flatten_nil, List.append_nil, List.append_assoc]
  · exact settings_at start_nil ind4_ok ["control".toList, "system".toList, "electrons".toList] rfl hA 2 (by decide +kernel) (by decide +kernel) r
  · rw [cards_at start_nil ind4_ok ["control".toList, "system".toList, "electrons".toList] rfl hA 2 rfl (by decide +kernel) (by decide +kernel) r, htab,
      C132_k_grid E.F hF.1]
    rfl

theorem relax_reads {E : Env} {c : Crystal} {m : Text → ℝ} {p : Text → Text} (hF : Spec.Plain E.F) (hn : Spec.Name c.name) (h : Spec.Complete E c m p) (fixVolume : Bool) :
    AllRead (relaxGroups E c fixVolume)
      [[Spec.kv "calculation" (quoted "vc-relax".toList)] :: [Spec.kv "pseudo_dir" "'./pseudo/'".toList] :: [Spec.kv "outdir" "'./qe-data/'".toList] ::
        [Spec.kv "prefix" (quoted c.name)] :: [[Spec.kv "tstress" ".true.".toList], [Spec.kv "tprnfor" ".true.".toList], [Spec.kv "disk_io" "'low'".toList]],
      [Spec.sizes E c, [Spec.kv "ecutwfc" (E.F.num c.cutoff)], Spec.occupations E c, Spec.spin c],
      [[Spec.kv "diagonalization" "'david'".toList], [Spec.kv "conv_thr" "1.0e-5".toList], [Spec.kv "mixing_beta" "0.7".toList]],
      [[Spec.kv "ion_dynamics" "\"bfgs\"".toList], [Spec.kv "ion_temperature" "\"rescaling\"".toList], [Spec.kv "tempw" (E.F.num c.T)], [Spec.kv "tolp" "20".toList], [Spec.kv "nraise" "1".toList]],
      [[Spec.kv "cell_dynamics" "\"bfgs\"".toList], [Spec.kv "press" "0.001".toList], [Spec.kv "press_conv_thr" "0.0005".toList], [Spec.kv "cell_dofree" (if fixVolume then "\"ibravshape\"".toList else "\"ibrav\"".toList)]]] := by
  refine .cons (group_reads (by decide +kernel) ?_) (.cons (group_reads (by decide +kernel) ?_) (.cons (group_reads (by decide +kernel) ?_) (.cons (group_reads (by decide +kernel) ?_) (.cons (group_reads (by decide +kernel) ?_) .nil))))
  · refine reads_control hn (by decide +kernel) ?_
    exact .cons (by decide +kernel) (.cons (by decide +kernel) (.cons (by decide +kernel) .nil))
  · exact .cons (reads_system hF h) (.cons (reads_cutoff hF) (.cons (reads_smearing hF false) (.cons (reads_spin c) .nil)))
  · exact .cons (by decide +kernel) (.cons (by decide +kernel) (.cons (by decide +kernel) .nil))
  · exact .cons (by decide +kernel) (.cons (by decide +kernel) (.cons (reads_asg (by decide +kernel) (num_val hF _) (rest_empty rest_nil)) (.cons (by decide +kernel) (.cons (by decide +kernel) .nil))))
  · exact .cons (by decide +kernel) (.cons (by decide +kernel) (.cons (by decide +kernel) (.cons (by cases fixVolume <;> decide +kernel) .nil)))

/-- **C148.** `relax`: variable cell; the volume is kept if asked for. -/
theorem C148_relax (E : Env) (c : Crystal) (hF : Spec.Plain E.F) (hn : Spec.Name c.name) (hm : Spec.Mpi E.mpiRun) (m : Text → ℝ) (p : Text → Text)
    (h : Spec.Complete E c m p) (fixVolume : Bool) (size : ℤ) (w : World) :
    ∃ t w', relax E c size fixVolume w = (w', .ok ()) ∧ Spec.Ran E c "pw" "relax" t w w' ∧
      settings "control".toList t = Spec.control c "vc-relax" ++
        [Spec.kv "tstress" ".true.".toList, Spec.kv "tprnfor" ".true.".toList, Spec.kv "disk_io" "'low'".toList] ∧
      settings "system".toList t = Spec.sizes E c ++ [Spec.kv "ecutwfc" (E.F.num c.cutoff)] ++ Spec.occupations E c ++ Spec.spin c ∧
      settings "electrons".toList t = [Spec.kv "diagonalization" "'david'".toList, Spec.kv "conv_thr" "1.0e-5".toList, Spec.kv "mixing_beta" "0.7".toList] ∧
      settings "ions".toList t = [Spec.kv "ion_dynamics" "\"bfgs\"".toList, Spec.kv "ion_temperature" "\"rescaling\"".toList, Spec.kv "tempw" (E.F.num c.T), Spec.kv "tolp" "20".toList, Spec.kv "nraise" "1".toList] ∧
      settings "cell".toList t = [Spec.kv "cell_dynamics" "\"bfgs\"".toList, Spec.kv "press" "0.001".toList, Spec.kv "press_conv_thr" "0.0005".toList, Spec.kv "cell_dofree" (if fixVolume then "\"ibravshape\"".toList else "\"ibrav\"".toList)] ∧
      cards "cell".toList t = Spec.crystal E c m p ++ [["K_POINTS".toList, "(automatic)".toList],
        [E.F.nat size, E.F.nat size, E.F.nat size, ['0'], ['0'], ['0']]] := by
  obtain ⟨r, hr, htab⟩ := pw_ok E c hF h [[]] (relaxGroups E c fixVolume) (kGrid E.F size none none)
  obtain ⟨w', hw, hran⟩ := job_ok E c hF hn hm [] (Or.inl rfl) "pw" "relax" (word_lit (by decide +kernel)) (by decide +kernel)
    (namelists [[]] ind4 (relaxGroups E c fixVolume) ++ r) w
  have hA := relax_reads hF hn h fixVolume
  refine ⟨_, w', ?_, hran, ?_, ?_, ?_, ?_, ?_, ?_⟩
  · rw [relax, hr]
    exact hw
  · exact settings_at start_line ind4_ok ["control".toList, "system".toList, "electrons".toList, "ions".toList, "cell".toList] rfl hA 0 (by decide +kernel) (by decide +kernel) r
  · rw [settings_at start_line ind4_ok ["control".toList, "system".toList, "electrons".toList, "ions".toList, "cell".toList] rfl hA 1 (by decide +kernel) (by decide +kernel) r]
    simp only [List.getD_cons_succ, List.getD_cons_zero, List.flatten_cons, List.flatten_nil, List.append_nil, List.append_assoc]
  · exact settings_at start_line ind4_ok ["control".toList, "system".toList, "electrons".toList, "ions".toList, "cell".toList] rfl hA 2 (by decide +kernel) (by decide +kernel) r
  · exact settings_at start_line ind4_ok ["control".toList, "system".toList, "electrons".toList, "ions".toList, "cell".toList] rfl hA 3 (by decide +kernel) (by decide +kernel) r
  · exact settings_at start_line ind4_ok ["control".toList, "system".toList, "electrons".toList, "ions".toList, "cell".toList] rfl hA 4 (by decide +kernel) (by decide +kernel) r
  · rw [cards_at start_line ind4_ok ["control".toList, "system".toList, "electrons".toList, "ions".toList, "cell".toList] rfl hA 4 rfl (by decide +kernel) (by decide +kernel) r, htab, C132_k_grid E.F hF.1]
    rfl

theorem bands_reads {E : Env} {c : Crystal} {m : Text → ℝ} {p : Text → Text} (hF : Spec.Plain E.F) (hn : Spec.Name c.name) (h : Spec.Complete E c m p) (bandCount : ℤ) :
    AllRead (bandsGroups E c bandCount)
      [[Spec.kv "calculation" (quoted "bands".toList)] :: [Spec.kv "pseudo_dir" "'./pseudo/'".toList] :: [Spec.kv "outdir" "'./qe-data/'".toList] ::
        [Spec.kv "prefix" (quoted c.name)] :: [[Spec.kv "disk_io" "'low'".toList]],
      [Spec.sizes E c, [Spec.kv "ecutwfc" (E.F.num c.cutoff), Spec.kv "nbnd" (E.F.nat bandCount)], Spec.spin c],
      [[Spec.kv "diagonalization" "'david'".toList]]] := by
  refine .cons (group_reads (by decide +kernel) ?_) (.cons (group_reads (by decide +kernel) ?_) (.cons (group_reads (by decide +kernel) ?_) .nil))
  · refine reads_control hn (by decide +kernel) ?_
    exact .cons (by decide +kernel) .nil
  · exact .cons (reads_system hF h) (.cons (reads_asg (by decide +kernel) (val_blank (num_val hF _)) (rest_asg (by decide +kernel) (val_blank (nat_val hF _)) (rest_empty rest_nil))) (.cons (reads_spin c) .nil))
  · exact .cons (by decide +kernel) .nil

/-- **C148.** `bands`: the given k-points and number of bands. -/
theorem C148_bands (E : Env) (c : Crystal) (hF : Spec.Plain E.F) (hn : Spec.Name c.name) (hm : Spec.Mpi E.mpiRun) (m : Text → ℝ) (p : Text → Text)
    (h : Spec.Complete E c m p) (bandCount : ℤ) (k : Text) (w : World) :
    ∃ t w', bands E c bandCount k w = (w', .ok ()) ∧ Spec.Ran E c "pw" "band" t w w' ∧
      settings "control".toList t = Spec.control c "bands" ++
        [Spec.kv "disk_io" "'low'".toList] ∧
      settings "system".toList t = Spec.sizes E c ++ [Spec.kv "ecutwfc" (E.F.num c.cutoff), Spec.kv "nbnd" (E.F.nat bandCount)] ++ Spec.spin c ∧
      settings "electrons".toList t = [Spec.kv "diagonalization" "'david'".toList] ∧
      cards "electrons".toList t = Spec.crystal E c m p ++ table k := by
  obtain ⟨r, hr, htab⟩ := pw_ok E c hF h [[]] (bandsGroups E c bandCount) k
  obtain ⟨w', hw, hran⟩ := job_ok E c hF hn hm [] (Or.inl rfl) "pw" "band" (word_lit (by decide +kernel)) (by decide +kernel)
    (namelists [[]] ind4 (bandsGroups E c bandCount) ++ r) w
  have hA := bands_reads hF hn h bandCount
  refine ⟨_, w', ?_, hran, ?_, ?_, ?_, ?_⟩
  · rw [bands, hr]
    exact hw
  · exact settings_at start_line ind4_ok ["control".toList, "system".toList, "electrons".toList] rfl hA 0 (by decide +kernel) (by decide +kernel) r
  · rw [settings_at start_line ind4_ok ["control".toList, "system".toList, "electrons".toList] rfl hA 1 (by decide +kernel) (by decide +kernel) r]
    simp only [List.getD_cons_succ, List.getD_cons_zero, List.flatten_cons, List.flatten_nil, List.append_nil, List.append_assoc]
  · exact settings_at start_line ind4_ok ["control".toList, "system".toList, "electrons".toList] rfl hA 2 (by decide +kernel) (by decide +kernel) r
  · rw [cards_at start_line ind4_ok ["control".toList, "system".toList, "electrons".toList] rfl hA 2 rfl (by decide +kernel) (by decide +kernel) r, htab]

theorem nscf_reads {E : Env} {c : Crystal} {m : Text → ℝ} {p : Text → Text} (hF : Spec.Plain E.F) (hn : Spec.Name c.name) (h : Spec.Complete E c m p) (bandCount : ℤ) :
    AllRead (nscfGroups E c bandCount)
      [[Spec.kv "calculation" (quoted "nscf".toList)] :: [Spec.kv "pseudo_dir" "'./pseudo/'".toList] :: [Spec.kv "outdir" "'./qe-data/'".toList] ::
        [Spec.kv "prefix" (quoted c.name)] :: [[Spec.kv "tstress" "true".toList], [Spec.kv "tprnfor" "true".toList], [Spec.kv "disk_io" "'low'".toList], [Spec.kv "verbosity" "'high'".toList]],
      [Spec.sizes E c, [Spec.kv "ecutwfc" (E.F.num c.cutoff)], [Spec.kv "nbnd" (E.F.nat bandCount)], [Spec.kv "force_symmorphic" "true".toList], Spec.occupations E c, Spec.spin c],
      [[Spec.kv "diagonalization" "'david'".toList], [Spec.kv "conv_thr" "1.0e-8".toList]]] := by
  refine .cons (group_reads (by decide +kernel) ?_) (.cons (group_reads (by decide +kernel) ?_) (.cons (group_reads (by decide +kernel) ?_) .nil))
  · refine reads_control hn (by decide +kernel) ?_
    exact .cons (by decide +kernel) (.cons (by decide +kernel) (.cons (by decide +kernel) (.cons (by decide +kernel) .nil)))
  · exact .cons (reads_system hF h) (.cons (reads_cutoff hF) (.cons (reads_asg (by decide +kernel) (nat_val hF _) (rest_empty rest_nil)) (.cons (by decide +kernel) (.cons (reads_smearing hF false) (.cons (reads_spin c) .nil)))))
  · exact .cons (by decide +kernel) (.cons (by decide +kernel) .nil)

/-- **C148.** `nscf`: the given k-points and number of bands; symmetries without translations. -/
theorem C148_nscf (E : Env) (c : Crystal) (hF : Spec.Plain E.F) (hn : Spec.Name c.name) (hm : Spec.Mpi E.mpiRun) (m : Text → ℝ) (p : Text → Text)
    (h : Spec.Complete E c m p) (bandCount : ℤ) (k : Text) (w : World) :
    ∃ t w', nscf E c k bandCount w = (w', .ok ()) ∧ Spec.Ran E c "pw" "nscf" t w w' ∧
      settings "control".toList t = Spec.control c "nscf" ++
        [Spec.kv "tstress" "true".toList, Spec.kv "tprnfor" "true".toList, Spec.kv "disk_io" "'low'".toList, Spec.kv "verbosity" "'high'".toList] ∧
      settings "system".toList t = Spec.sizes E c ++ [Spec.kv "ecutwfc" (E.F.num c.cutoff)] ++ [Spec.kv "nbnd" (E.F.nat bandCount)] ++ [Spec.kv "force_symmorphic" "true".toList] ++ Spec.occupations E c ++ Spec.spin c ∧
      settings "electrons".toList t = [Spec.kv "diagonalization" "'david'".toList, Spec.kv "conv_thr" "1.0e-8".toList] ∧
      cards "electrons".toList t = Spec.crystal E c m p ++ table k := by
  obtain ⟨r, hr, htab⟩ := pw_ok E c hF h [] (nscfGroups E c bandCount) k
  obtain ⟨w', hw, hran⟩ := job_ok E c hF hn hm "./".toList (Or.inr rfl) "pw" "nscf" (word_lit (by decide +kernel)) (by decide +kernel)
    (namelists [] ind4 (nscfGroups E c bandCount) ++ r) w
  have hA := nscf_reads hF hn h bandCount
  refine ⟨_, w', ?_, hran, ?_, ?_, ?_, ?_⟩
  · rw [nscf, hr]
    exact hw
  · exact settings_at start_nil ind4_ok ["control".toList, "system".toList, "electrons".toList] rfl hA 0 (by decide +kernel) (by decide +kernel) r
  · rw [settings_at start_nil ind4_ok ["control".toList, "system".toList, "electrons".toList] rfl hA 1 (by decide +kernel) (by decide +kernel) r]
    simp only [List.getD_cons_succ, List.getD_cons_zero, List.flatten_cons, List.flatten_nil, List.append_nil, List.append_assoc]
  · exact settings_at start_nil ind4_ok ["control".toList, "system".toList, "electrons".toList] rfl hA 2 (by decide +kernel) (by decide +kernel) r
  · rw [cards_at start_nil ind4_ok ["control".toList, "system".toList, "electrons".toList] rfl hA 2 rfl (by decide +kernel) (by decide +kernel) r, htab]

theorem nscf_nosym_reads {E : Env} {c : Crystal} {m : Text → ℝ} {p : Text → Text} (hF : Spec.Plain E.F) (hn : Spec.Name c.name) (h : Spec.Complete E c m p) (bandCount : ℤ) :
    AllRead (nosymGroups E c bandCount)
      [[Spec.kv "calculation" (quoted "nscf".toList)] :: [Spec.kv "pseudo_dir" "'./pseudo/'".toList] :: [Spec.kv "outdir" "'./qe-data/'".toList] ::
        [Spec.kv "prefix" (quoted c.name)] :: [[Spec.kv "tstress" "true".toList], [Spec.kv "tprnfor" "true".toList], [Spec.kv "disk_io" "'low'".toList], [Spec.kv "verbosity" "'high'".toList]],
      [Spec.sizes E c, [Spec.kv "ecutwfc" (E.F.num c.cutoff)], [Spec.kv "nosym" "true".toList], [Spec.kv "noinv" "true".toList], [Spec.kv "nbnd" (E.F.nat bandCount)], Spec.occupations E c, Spec.spin c],
      [[Spec.kv "diagonalization" "'david'".toList], [Spec.kv "conv_thr" "1.0e-8".toList]]] := by
  refine .cons (group_reads (by decide +kernel) ?_) (.cons (group_reads (by decide +kernel) ?_) (.cons (group_reads (by decide +kernel) ?_) .nil))
  · refine reads_control hn (by decide +kernel) ?_
    exact .cons (by decide +kernel) (.cons (by decide +kernel) (.cons (by decide +kernel) (.cons (by decide +kernel) .nil)))
  · exact .cons (reads_system hF h) (.cons (reads_cutoff hF) (.cons (by decide +kernel) (.cons (by decide +kernel) (.cons (reads_asg (by decide +kernel) (nat_val hF _) rest_nil) (.cons (reads_smearing hF false) (.cons (reads_spin c) .nil))))))
  · exact .cons (by decide +kernel) (.cons (by decide +kernel) .nil)

/-- **C148.** `nscf_nosym`: no symmetries; the same file as `nscf`. -/
theorem C148_nscf_nosym (E : Env) (c : Crystal) (hF : Spec.Plain E.F) (hn : Spec.Name c.name) (hm : Spec.Mpi E.mpiRun) (m : Text → ℝ) (p : Text → Text)
    (h : Spec.Complete E c m p) (bandCount : ℤ) (k : Text) (w : World) :
    ∃ t w', nscfNosym E c k bandCount w = (w', .ok ()) ∧ Spec.Ran E c "pw" "nscf" t w w' ∧
      settings "control".toList t = Spec.control c "nscf" ++
        [Spec.kv "tstress" "true".toList, Spec.kv "tprnfor" "true".toList, Spec.kv "disk_io" "'low'".toList, Spec.kv "verbosity" "'high'".toList] ∧
      settings "system".toList t = Spec.sizes E c ++ [Spec.kv "ecutwfc" (E.F.num c.cutoff)] ++ [Spec.kv "nosym" "true".toList] ++ [Spec.kv "noinv" "true".toList] ++ [Spec.kv "nbnd" (E.F.nat bandCount)] ++ Spec.occupations E c ++ Spec.spin c ∧
      settings "electrons".toList t = [Spec.kv "diagonalization" "'david'".toList, Spec.kv "conv_thr" "1.0e-8".toList] ∧
      cards "electrons".toList t = Spec.crystal E c m p ++ table k := by
  obtain ⟨r, hr, htab⟩ := pw_ok E c hF h [[]] (nosymGroups E c bandCount) k
  obtain ⟨w', hw, hran⟩ := job_ok E c hF hn hm "./".toList (Or.inr rfl) "pw" "nscf" (word_lit (by decide +kernel)) (by decide +kernel)
    (namelists [[]] ind4 (nosymGroups E c bandCount) ++ r) w
  have hA := nscf_nosym_reads hF hn h bandCount
  refine ⟨_, w', ?_, hran, ?_, ?_, ?_, ?_⟩
  · rw [nscfNosym, hr]
    exact hw
  · exact settings_at start_line ind4_ok ["control".toList, "system".toList, "electrons".toList] rfl hA 0 (by decide +kernel) (by decide +kernel) r
  · rw [settings_at start_line ind4_ok ["control".toList, "system".toList, "electrons".toList] rfl hA 1 (by decide +kernel) (by decide +kernel) r]
    simp only [List.getD_cons_succ, List.getD_cons_zero, List.flatten_cons, List.flatten_nil, List.append_nil, List.append_assoc]
  · exact settings_at start_line ind4_ok ["control".toList, "system".toList, "electrons".toList] rfl hA 2 (by decide +kernel) (by decide +kernel) r
  · rw [cards_at start_line ind4_ok ["control".toList, "system".toList, "electrons".toList] rfl hA 2 rfl (by decide +kernel) (by decide +kernel) r, htab]

/-- **C148.** The numbers of atoms and species announced in the file are those of the lines below it. -/
theorem C148_counts (E : Env) (c : Crystal) (m : Text → ℝ) (p : Text → Text) (h : Spec.Complete E c m p) :
    ∃ cell species positions, Spec.crystal E c m p = cell ++ [["ATOMIC_SPECIES".toList]] ++ species ++ [["ATOMIC_POSITIONS".toList, "crystal".toList]] ++ positions ∧
      cell.length = 4 ∧ Spec.kv "ntyp" (E.F.nat species.length) ∈ Spec.sizes E c ∧ Spec.kv "nat" (E.F.nat positions.length) ∈ Spec.sizes E c := by
  refine ⟨_, E.order.map (fun s => [s, E.F.num (m s), p s]),
    (c.cell.basis.zip c.cell.types).map (fun a => [a.2, E.F.num (a.1.getD 0 0), E.F.num (a.1.getD 1 0), E.F.num (a.1.getD 2 0)]), rfl, rfl, ?_, ?_⟩
  · rw [List.length_map, order_length h]
    simp [Spec.sizes]
  · rw [List.length_map, List.length_zip, h.count, Nat.min_self]
    simp [Spec.sizes]

/-- **C148.** If an element has no mass or no pseudopotential, or an atom has not three coordinates, every method for `pw.x` raises, runs nothing, and
leaves its input file empty. -/
theorem C148_failing (E : Env) (c : Crystal) (hn : Spec.Name c.name) (w : World) (size bandCount : ℤ) (size2 size3 : Option ℤ) (fixVolume : Bool) (k : Text)
    (e : Err) (he : ((∃ s ∈ E.order, E.mass s = none ∨ E.pp s = none) ∧ e = .keyError) ∨
      ((∀ s ∈ E.order, (E.mass s).isSome ∧ (E.pp s).isSome) ∧ (∃ a ∈ c.cell.basis.zip c.cell.types, a.1.length ≠ 3) ∧ e = .assertionError)) :
    ∀ call ∈ [("scf", scf E c size size2 size3), ("relax", relax E c size fixVolume), ("band", bands E c bandCount k), ("nscf", nscf E c k bandCount),
      ("nscf", nscfNosym E c k bandCount)],
    ∃ w', call.2 w = (w', .error e) ∧ w'.commands = w.commands ∧ w'.files (c.name ++ '.' :: call.1.toList ++ ".in".toList) = some [] ∧
      ∀ f, f ≠ c.name ++ '.' :: call.1.toList ++ ".in".toList → w'.files f = w.files f := by
  have hc : crystal E.F E.mass E.pp E.order c.cell = .error e := by
    rcases he with ⟨h, rfl⟩ | ⟨h1, h2, rfl⟩
    · exact (C132_crystal_errors E.F E.mass E.pp E.order c.cell).1 h
    · exact ((C132_crystal_errors E.F E.mass E.pp E.order c.cell).2 h1 h2).1
  have hpw : ∀ start gs k, pwText E c start gs k = .error e := by
    intro start gs k
    rw [pwText, hc]
    rfl
  intro call hcall
  simp only [List.mem_cons, List.not_mem_nil, or_false] at hcall
  rcases hcall with rfl | rfl | rfl | rfl | rfl
  · simp only [scf, hpw]
    exact job_error E c hn [] (Or.inl rfl) _ _ e w
  · simp only [relax, hpw]
    exact job_error E c hn [] (Or.inl rfl) _ _ e w
  · simp only [bands, hpw]
    exact job_error E c hn [] (Or.inl rfl) _ _ e w
  · simp only [nscf, hpw]
    exact job_error E c hn _ (Or.inr rfl) _ _ e w
  · simp only [nscfNosym, hpw]
    exact job_error E c hn _ (Or.inr rfl) _ _ e w

/-- **C148.** The temperature: `degauss` is `k_B T` in Rydberg (constants of CODATA 2018), up to the ten digits given. -/
theorem C148_degauss (E : Env) (c : Crystal) : ∃ x, Spec.kv "degauss" (E.F.num x) ∈ Spec.occupations E c ∧
    (c.T = 0 → x = 0.02 ∧ Spec.kv "smearing" "'marzari-vanderbilt'".toList ∈ Spec.occupations E c) ∧
    (c.T ≠ 0 → |x * 2.1798723611035e-18 - 1.380649e-23 * c.T| ≤ 1e-10 * (1.380649e-23 * |c.T|) ∧
      Spec.kv "smearing" "'fermi-dirac'".toList ∈ Spec.occupations E c) := by
  classical
  refine ⟨if c.T = 0 then 0.02 else c.T * 6.3336231269e-6, ?_, ?_, ?_⟩
  · exact .tail _ (.tail _ (.head _))
  · intro hT
    rw [if_pos hT]
    refine ⟨rfl, ?_⟩
    unfold Spec.occupations
    rw [if_pos hT]
    exact .tail _ (.head _)
  · intro hT
    rw [if_neg hT]
    refine ⟨?_, by unfold Spec.occupations; rw [if_neg hT]; exact .tail _ (.head _)⟩
    have e : c.T * 6.3336231269e-6 * 2.1798723611035e-18 - 1.380649e-23 * c.T = (6.3336231269e-6 * 2.1798723611035e-18 - 1.380649e-23) * c.T := by ring
    rw [e, abs_mul, ← mul_assoc]
    refine mul_le_mul_of_nonneg_right ?_ (abs_nonneg _)
    rw [abs_le]
    constructor <;> norm_num

/-! ## Files for the programs which work on the results -/

/-- **C148.** `bandx` runs `bands.x`. -/
theorem C148_bandx (E : Env) (c : Crystal) (hF : Spec.Plain E.F) (hn : Spec.Name c.name) (hm : Spec.Mpi E.mpiRun) (w : World) :
    ∃ t w', bandx E c w = (w', .ok ()) ∧ Spec.Ran E c "bands" "bandx" t w w' ∧
      settings "BANDS".toList t = [Spec.kv "prefix" ("'".toList ++ c.name ++ "'".toList), Spec.kv "outdir" "'./qe-data/'".toList, Spec.kv "filband" ("'".toList ++ (c.name ++ ".Bandx.dat".toList) ++ "'".toList)] := by
  have hA : AllRead (bandxGroups c)
      [[[Spec.kv "prefix" ("'".toList ++ c.name ++ "'".toList)], [Spec.kv "outdir" "'./qe-data/'".toList], [Spec.kv "filband" ("'".toList ++ (c.name ++ ".Bandx.dat".toList) ++ "'".toList)]]] := .cons (group_reads (by decide +kernel) (.cons (reads_asg (by decide +kernel) (name_val hn) rest_nil) (.cons (by decide +kernel) (.cons (reads_asg (by decide +kernel) (name_ext_val hn _ (by decide +kernel)) rest_nil) .nil)))) .nil
  obtain ⟨w', hw, hran⟩ := job_ok E c hF hn hm [] (Or.inl rfl) "bands" "bandx" (word_lit (by decide +kernel)) (by decide +kernel)
    (namelists [[]] [] (bandxGroups c)) w
  refine ⟨_, w', hw, hran, ?_⟩
  · simpa using settings_at start_line (ind := []) (by decide +kernel) ["BANDS".toList] rfl hA 0 (by decide +kernel) (by decide +kernel) []

/-- **C148.** `dos` runs `dos.x`. -/
theorem C148_dos (E : Env) (c : Crystal) (hF : Spec.Plain E.F) (hn : Spec.Name c.name) (hm : Spec.Mpi E.mpiRun) (w : World) :
    ∃ t w', dos E c w = (w', .ok ()) ∧ Spec.Ran E c "dos" "dos" t w w' ∧
      settings "control".toList t = [Spec.kv "calculation" "'nscf'".toList, Spec.kv "tstress" ".true.".toList, Spec.kv "tprnfor" ".true.".toList] ∧
      settings "dos".toList t = [Spec.kv "prefix" ("'".toList ++ c.name ++ "'".toList), Spec.kv "bz_sum" "'tetrahedra_opt'".toList, Spec.kv "outdir" "'./qe-data/'".toList, Spec.kv "deltae" "1e-02".toList, Spec.kv "fildos" ("'".toList ++ (c.name ++ ".Dos.dat".toList) ++ "'".toList)] := by
  have hA : AllRead (dosGroups c)
      [[[Spec.kv "calculation" "'nscf'".toList], [Spec.kv "tstress" ".true.".toList], [Spec.kv "tprnfor" ".true.".toList]], [[Spec.kv "prefix" ("'".toList ++ c.name ++ "'".toList)], [Spec.kv "bz_sum" "'tetrahedra_opt'".toList], [Spec.kv "outdir" "'./qe-data/'".toList], [Spec.kv "deltae" "1e-02".toList], [Spec.kv "fildos" ("'".toList ++ (c.name ++ ".Dos.dat".toList) ++ "'".toList)]]] := .cons (group_reads (by decide +kernel) (.cons (by decide +kernel) (.cons (by decide +kernel) (.cons (by decide +kernel) .nil)))) (.cons (group_reads (by decide +kernel) (.cons (reads_asg (by decide +kernel) (name_val hn) (rest_empty rest_nil)) (.cons (by decide +kernel) (.cons (by decide +kernel) (.cons (by decide +kernel) (.cons (reads_asg (by decide +kernel) (val_blank (name_ext_val hn _ (by decide +kernel))) (rest_empty rest_nil)) .nil)))))) .nil)
  obtain ⟨w', hw, hran⟩ := job_ok E c hF hn hm "./".toList (Or.inr rfl) "dos" "dos" (word_lit (by decide +kernel)) (by decide +kernel)
    (namelists [[]] ind4 (dosGroups c)) w
  refine ⟨_, w', hw, hran, ?_, ?_⟩
  · simpa using settings_at start_line (ind := ind4) (ind4_ok) ["control".toList, "dos".toList] rfl hA 0 (by decide +kernel) (by decide +kernel) []
  · simpa using settings_at start_line (ind := ind4) (ind4_ok) ["control".toList, "dos".toList] rfl hA 1 (by decide +kernel) (by decide +kernel) []

/-- **C148.** `projections` runs `projwfc.x`. -/
theorem C148_projections (E : Env) (c : Crystal) (hF : Spec.Plain E.F) (hn : Spec.Name c.name) (hm : Spec.Mpi E.mpiRun) (overlaps : Bool) (w : World) :
    ∃ t w', projections E c overlaps w = (w', .ok ()) ∧ Spec.Ran E c "projwfc" "projwfc" t w w' ∧
      settings "projwfc".toList t = [Spec.kv "prefix" ("'".toList ++ c.name ++ "'".toList), Spec.kv "outdir" "'./qe-data/'".toList, Spec.kv "lwrite_overlaps" (if overlaps then "True".toList else "False".toList)] := by
  have hA : AllRead (projGroups c overlaps)
      [[[Spec.kv "prefix" ("'".toList ++ c.name ++ "'".toList)], [Spec.kv "outdir" "'./qe-data/'".toList], [Spec.kv "lwrite_overlaps" (if overlaps then "True".toList else "False".toList)]]] := .cons (group_reads (by decide +kernel) (.cons (reads_asg (by decide +kernel) (name_val hn) rest_nil) (.cons (by decide +kernel) (.cons (by cases overlaps <;> decide +kernel) .nil)))) .nil
  obtain ⟨w', hw, hran⟩ := job_ok E c hF hn hm [] (Or.inl rfl) "projwfc" "projwfc" (word_lit (by decide +kernel)) (by decide +kernel)
    (namelists [[]] [] (projGroups c overlaps)) w
  refine ⟨_, w', hw, hran, ?_⟩
  · simpa using settings_at start_line (ind := []) (by decide +kernel) ["projwfc".toList] rfl hA 0 (by decide +kernel) (by decide +kernel) []

theorem pw2wan_reads {c : Crystal} (hn : Spec.Name c.name) (useSym : Bool) : ∃ o, AllRead (pw2wanGroups c useSym) [o] ∧
    o.flatten = [Spec.kv "outdir" "'./qe-data/'".toList, Spec.kv "prefix" (quoted c.name), Spec.kv "seedname" (quoted c.name), Spec.kv "wan_mode" "'standalone'".toList,
      Spec.kv "write_mmn" "true".toList, Spec.kv "write_amn" "true".toList] ++
      (if useSym then [Spec.kv "write_dmn" "true".toList, Spec.kv "read_sym" "true".toList] else []) := by
  have h1 : List.Forall₂ Reads [[asg "outdir".toList "'./qe-data/'".toList], [asg "prefix ".toList (' ' :: quoted c.name)], [asg "seedname ".toList (' ' :: quoted c.name)],
      [asg "!spin_component ".toList " 'none'".toList], [asg "wan_mode ".toList " 'standalone'".toList], [asg "write_mmn ".toList " true".toList],
      [asg "write_amn ".toList " true".toList]]
      [[Spec.kv "outdir" "'./qe-data/'".toList], [Spec.kv "prefix" (quoted c.name)], [Spec.kv "seedname" (quoted c.name)], [],
        [Spec.kv "wan_mode" "'standalone'".toList], [Spec.kv "write_mmn" "true".toList], [Spec.kv "write_amn" "true".toList]] :=
    .cons (by decide +kernel) (.cons (reads_asg (by decide +kernel) (val_blank (name_val hn)) rest_nil) (.cons (reads_asg (by decide +kernel)
      (val_blank (name_val hn)) rest_nil) (.cons (by decide +kernel) (.cons (by decide +kernel) (.cons (by decide +kernel) (.cons (by decide +kernel) .nil))))))
  cases useSym
  · exact ⟨_, .cons (group_reads (by decide +kernel) (forall2_append h1 (.cons (b := [])
      (by decide +kernel) .nil))) .nil, rfl⟩
  · exact ⟨_, .cons (group_reads (by decide +kernel) (forall2_append h1 (.cons (b := [Spec.kv "write_dmn" "true".toList]) (by decide +kernel)
      (.cons (b := [Spec.kv "read_sym" "true".toList]) (by decide +kernel) .nil)))) .nil, rfl⟩

/-- **C148.** `overlaps_for_wannier` runs `pw2wannier90.x`; the line with `!` is no setting. -/
theorem C148_overlaps (E : Env) (c : Crystal) (hF : Spec.Plain E.F) (hn : Spec.Name c.name) (hm : Spec.Mpi E.mpiRun) (useSym : Bool) (w : World) :
    ∃ t w', overlapsForWannier E c useSym w = (w', .ok ()) ∧ Spec.Ran E c "pw2wannier90" "pw2wan" t w w' ∧
      settings "inputpp".toList t = [Spec.kv "outdir" "'./qe-data/'".toList, Spec.kv "prefix" ("'".toList ++ c.name ++ "'".toList),
        Spec.kv "seedname" ("'".toList ++ c.name ++ "'".toList), Spec.kv "wan_mode" "'standalone'".toList, Spec.kv "write_mmn" "true".toList,
        Spec.kv "write_amn" "true".toList] ++ (if useSym then [Spec.kv "write_dmn" "true".toList, Spec.kv "read_sym" "true".toList] else []) := by
  obtain ⟨o, hA, ho⟩ := pw2wan_reads hn useSym
  obtain ⟨w', hw, hran⟩ := job_ok E c hF hn hm [] (Or.inl rfl) "pw2wannier90" "pw2wan" (word_lit (by decide +kernel)) (by decide +kernel)
    (namelists [[]] "   ".toList (pw2wanGroups c useSym)) w
  refine ⟨_, w', hw, hran, ?_⟩
  have := settings_at start_line (ind := "   ".toList) (by decide +kernel) ["inputpp ".toList] rfl hA 0 (g := "inputpp".toList) (by decide +kernel)
    (by decide +kernel) []
  rw [List.append_nil] at this
  rw [this]
  exact ho

/-- **C148.** `fermi_surface` runs `fs.x`, then xcrysden on its result. -/
theorem C148_fermi_surface (E : Env) (c : Crystal) (hF : Spec.Plain E.F) (hn : Spec.Name c.name) (hm : Spec.Mpi E.mpiRun) (w : World) :
    ∃ t w' w'' cmd, fermiSurface E c w = (w'', .ok ()) ∧ Spec.Ran E c "fs" "fs" t w w' ∧ w''.files = w'.files ∧ w''.commands = w'.commands ++ [cmd] ∧
      words cmd = ["xcrysden".toList, "--bxsf".toList, c.name ++ "_fs.bxsf".toList, ">".toList, "/dev/null".toList] ∧
      settings "fermi".toList t = [Spec.kv "prefix" ("'".toList ++ c.name ++ "'".toList), Spec.kv "outdir" "'./qe-data/'".toList] := by
  have hA : AllRead (fsGroups c) [[[Spec.kv "prefix" (quoted c.name)], [Spec.kv "outdir" "'./qe-data/'".toList]]] :=
    .cons (group_reads (by decide +kernel) (.cons (reads_asg (by decide +kernel) (name_val hn) rest_nil) (.cons (by decide +kernel) .nil))) .nil
  obtain ⟨w', hw, hran⟩ := job_ok E c hF hn hm [] (Or.inl rfl) "fs" "fs" (word_lit (by decide +kernel)) (by decide +kernel)
    (namelists [[]] [] (fsGroups c)) w
  refine ⟨_, w', { w' with commands := w'.commands ++ ["xcrysden --bxsf ".toList ++ c.name ++ "_fs.bxsf > /dev/null".toList] },
    "xcrysden --bxsf ".toList ++ c.name ++ "_fs.bxsf > /dev/null".toList, by rw [fermiSurface, hw], hran, rfl, rfl, ?_, ?_⟩
  · have e : "xcrysden --bxsf ".toList ++ c.name ++ "_fs.bxsf > /dev/null".toList = "xcrysden".toList ++ ' ' :: ("--bxsf".toList ++ ' ' ::
        ((c.name ++ "_fs.bxsf".toList) ++ ' ' :: (">".toList ++ ' ' :: "/dev/null".toList))) := by
      simp [List.append_assoc]
    rw [e, words_cons (word_lit (by decide +kernel)), words_cons (word_lit (by decide +kernel)), words_cons (word_append hn.1 (by decide +kernel)),
      words_cons (word_lit (by decide +kernel)), words_one (word_lit (by decide +kernel))]
  · simpa [quoted] using settings_at start_line (ind := []) (by decide +kernel) ["fermi".toList] rfl hA 0 (by decide +kernel) (by decide +kernel) []

theorem eps_reads {E : Env} {c : Crystal} (hF : Spec.Plain E.F) (hn : Spec.Name c.name) (nw : ℤ) :
    settings "inputpp".toList (epsText E c nw) = [Spec.kv "prefix" (quoted c.name), Spec.kv "outdir" "'./qe-data/'".toList, Spec.kv "calculation" "\"eps\"".toList] ∧
    settings "energy_grid".toList (epsText E c nw) = [Spec.kv "smeartype" "\"gauss\"".toList, Spec.kv "intersmear" "0.2".toList, Spec.kv "wmin" "0.0".toList,
      Spec.kv "wmax" (E.F.num c.cutoff), Spec.kv "nw" (E.F.nat nw)] := by
  have hi : squeeze "  ".toList = [] ∧ '\n' ∉ "  ".toList := by decide +kernel
  have hA : AllRead [⟨"inputpp".toList, [[asg "prefix".toList (quoted c.name)], [asg "outdir".toList "'./qe-data/'".toList],
      [asg "calculation ".toList " \"eps\"".toList]]⟩]
      [[[Spec.kv "prefix" (quoted c.name)], [Spec.kv "outdir" "'./qe-data/'".toList], [Spec.kv "calculation" "\"eps\"".toList]]] :=
    .cons (group_reads (by decide +kernel) (.cons (reads_asg (by decide +kernel) (name_val hn) rest_nil) (.cons (by decide +kernel)
      (.cons (by decide +kernel) .nil)))) .nil
  have hB : AllRead [⟨"energy_grid".toList, [[asg "smeartype ".toList " \"gauss\"".toList], [asg "intersmear ".toList " 0.2".toList],
      [asg "wmin ".toList "  0.0".toList], [asg "wmax ".toList (' ' :: E.F.num c.cutoff)], [asg "nw ".toList (' ' :: E.F.nat nw)]]⟩]
      [[[Spec.kv "smeartype" "\"gauss\"".toList], [Spec.kv "intersmear" "0.2".toList], [Spec.kv "wmin" "0.0".toList],
      [Spec.kv "wmax" (E.F.num c.cutoff)], [Spec.kv "nw" (E.F.nat nw)]]] :=
    .cons (group_reads (by decide +kernel) (.cons (by decide +kernel) (.cons (by decide +kernel) (.cons (by decide +kernel)
      (.cons (reads_asg (by decide +kernel) (val_blank (num_val hF _)) rest_nil) (.cons (reads_asg (by decide +kernel) (val_blank (nat_val hF _)) rest_nil) .nil)))))) .nil
  constructor
  · exact settings_at start_line hi ["inputpp".toList] rfl hA 0 (by decide +kernel) (by decide +kernel) _
  · have h2 := settings_at start_line hi ["energy_grid".toList] rfl hB 0 (g := "energy_grid".toList) (by decide +kernel) (by decide +kernel) []
    rw [List.append_nil] at h2
    rw [epsText, settings, namelists_lines start_line hi.1 hi.2 hA, after_skip _ _ (by
      intro l hl
      rw [start_line l hl]
      simp [squeeze]), List.map_singleton, List.flatten_singleton, after_skip _ _ (text_skip hi.1 hi.2 (by
        cases hA with
        | cons h _ => exact h) (by show squeeze "inputpp".toList ≠ "energy_grid".toList; decide +kernel))]
    exact h2

/-- **C148.** `dielectric_function` runs `epsilon.x`, with the file as input. -/
theorem C148_dielectric (E : Env) (c : Crystal) (hF : Spec.Plain E.F) (hn : Spec.Name c.name) (hm : Spec.Mpi E.mpiRun) (nw : ℤ) (w : World) :
    ∃ t w' cmd, dielectricFunction E c nw w = (w', .ok ()) ∧ w'.files (c.name ++ ".epsilon.in".toList) = some t ∧
      (∀ f, f ≠ c.name ++ ".epsilon.in".toList → w'.files f = w.files f) ∧ w'.commands = w.commands ++ [cmd] ∧
      words cmd = words E.mpiRun ++ ["epsilon".toList ++ (if E.win then [] else ".x".toList), "<".toList, c.name ++ ".epsilon.in".toList, "|".toList,
        "tee".toList, c.name ++ ".epsilon.out".toList] ∧
      settings "inputpp".toList t = [Spec.kv "prefix" ("'".toList ++ c.name ++ "'".toList), Spec.kv "outdir" "'./qe-data/'".toList,
        Spec.kv "calculation" "\"eps\"".toList] ∧
      settings "energy_grid".toList t = [Spec.kv "smeartype" "\"gauss\"".toList, Spec.kv "intersmear" "0.2".toList, Spec.kv "wmin" "0.0".toList,
        Spec.kv "wmax" (E.F.num c.cutoff), Spec.kv "nw" (E.F.nat nw)] := by
  have hr := eps_reads (c := c) hF hn nw
  have hpath := (path_name hn ".epsilon.in".toList).1
  refine ⟨epsText E c nw, _, _, rfl, ?_, ?_, rfl, ?_, hr.1, hr.2⟩
  · simp only [hpath, if_true]
  · intro f hf
    simp only [hpath, if_neg hf]
  · have e : "epsilon".toList ++ exe E ++ " < ".toList ++ c.name ++ ".epsilon.in | tee ".toList ++ c.name ++ ".epsilon.out".toList =
        ("epsilon".toList ++ exe E) ++ ' ' :: ("<".toList ++ ' ' :: ((c.name ++ ".epsilon.in".toList) ++ ' ' :: ("|".toList ++ ' ' :: ("tee".toList ++ ' ' ::
        (c.name ++ ".epsilon.out".toList))))) := by
      simp [List.append_assoc]
    rw [e, words_mpi hm, words_cons (word_append (word_lit (by decide +kernel)) (exe_ok E)), words_cons (word_lit (by decide +kernel)),
      words_cons (word_append hn.1 (by decide +kernel)), words_cons (word_lit (by decide +kernel)), words_cons (word_lit (by decide +kernel)),
      words_one (word_append hn.1 (by decide +kernel))]
    rfl

/-- **C148.** `wannier` runs `wannier90.x` on the name and writes no file. -/
theorem C148_wannier (E : Env) (c : Crystal) (hn : Spec.Name c.name) (w : World) :
    ∃ w' cmd, wannier E c w = (w', .ok ()) ∧ w'.files = w.files ∧ w'.commands = w.commands ++ [cmd] ∧
      words cmd = ["wannier90".toList ++ (if E.win then [] else ".x".toList), c.name, "|".toList, "tee".toList, c.name ++ ".wout".toList] := by
  refine ⟨_, _, rfl, rfl, rfl, ?_⟩
  have e : "wannier90".toList ++ exe E ++ sp ++ c.name ++ " | tee ".toList ++ (c.name ++ ".wout".toList) = ("wannier90".toList ++ exe E) ++ ' ' ::
      (c.name ++ ' ' :: ("|".toList ++ ' ' :: ("tee".toList ++ ' ' :: (c.name ++ ".wout".toList)))) := by
    simp [List.append_assoc, sp]
  rw [e, words_cons (word_append (word_lit (by decide +kernel)) (exe_ok E)), words_cons hn.1, words_cons (word_lit (by decide +kernel)),
    words_cons (word_lit (by decide +kernel)), words_one (word_append hn.1 (by decide +kernel))]
  rfl

/-- **C148.** With an absolute path as name, `nscf` writes another file than the one `pw.x` is told to read. -/
theorem C148_absolute (E : Env) (c : Crystal) (hF : Spec.Plain E.F) (m : Text → ℝ) (p : Text → Text) (h : Spec.Complete E c m p) (n : Text)
    (hc : c.name = '/' :: n) (hn : Spec.Name n) (k : Text) (bandCount : ℤ) (w : World) :
    ∃ w' cmd, nscf E c k bandCount w = (w', .ok ()) ∧ w'.files (c.name ++ ".nscf.in".toList) = w.files (c.name ++ ".nscf.in".toList) ∧
      (w'.files (n ++ ".nscf.in".toList)).isSome ∧ w'.commands = w.commands ++ [cmd] ∧ c.name ++ ".nscf.in".toList ∈ words cmd := by
  obtain ⟨r, hr, _⟩ := pw_ok E c hF h [] (nscfGroups E c bandCount) k
  have hpath : path ("./".toList ++ c.name ++ '.' :: "nscf".toList ++ ".in".toList) = n ++ ".nscf.in".toList := by
    rw [hc]
    obtain ⟨a, b, rfl⟩ := List.exists_cons_of_ne_nil hn.1.1
    have h1 : ((a :: b) ++ ".nscf.in".toList).head? ≠ some '.' := hn.2.2.1
    have h2 : ((a :: b) ++ ".nscf.in".toList).head? ≠ some '/' := hn.2.2.2
    have : "./".toList ++ '/' :: (a :: b) ++ '.' :: "nscf".toList ++ ".in".toList = '.' :: '/' :: '/' :: ((a :: b) ++ ".nscf.in".toList) := by
      simp
    rw [this]
    exact strip_name h1 h2 true
  have hne : c.name ++ ".nscf.in".toList ≠ n ++ ".nscf.in".toList := by
    rw [hc]
    intro e
    have := congrArg List.length e
    simp at this
  refine ⟨_, runCommand E c "pw".toList "nscf".toList, by rw [nscf, hr]; rfl, ?_, ?_, rfl, ?_⟩
  · simp only [hpath, if_neg hne]
  · simp only [hpath, if_true]
    rfl
  · have hw : Word (c.name ++ ".nscf.in".toList) := by
      refine word_append ?_ (by decide +kernel)
      rw [hc]
      refine ⟨by simp, ?_, ?_⟩
      · simpa using hn.1.2.1
      · simpa using hn.1.2.2
    have e : runCommand E c "pw".toList "nscf".toList = (E.mpiRun ++ "pw".toList ++ exe E ++ " -nk ".toList ++ E.F.nat c.nk ++ " -nd ".toList ++ E.F.nat c.nd ++
        " -nt ".toList ++ E.F.nat c.nt ++ " -in".toList) ++ ' ' :: ((c.name ++ ".nscf.in".toList) ++ ' ' :: ("| tee ".toList ++ c.name ++ ".nscf.out".toList)) := by
      simp [runCommand, List.append_assoc]
    rw [e, words_append, words_cons hw]
    simp

/-! ## An example -/

/-- Numbers print as `1`. -/
def exFmt : Fmt := ⟨fun _ => ['1'], fun _ => ['1']⟩

noncomputable def exEnv : Env :=
  { F := exFmt, mass := fun _ => some 28.085, pp := fun _ => some "Si.upf".toList, order := ["Si".toList], mpiRun := "mpirun --use-hwthread-cpus ".toList, win := false }

noncomputable def exCrystal : Crystal :=
  { name := "si".toList, cell := ⟨"angstrom".toList, fun i j => if i = j then 0 else 2.7, [[0, 0, 0], [0.25, 0.25, 0.25]], ["Si".toList, "Si".toList]⟩,
    cutoff := 30, T := 300, relativistic := true, nk := 1, nd := 1, nt := 1 }

theorem ex_plain : Spec.Plain exFmt := by
  refine ⟨⟨fun _ => ⟨?_, ?_, ?_⟩, fun _ => ⟨?_, ?_, ?_⟩⟩, fun _ => ?_, fun _ => ?_⟩ <;> simp [exFmt]

theorem ex_name : Spec.Name "si".toList := ⟨⟨by decide +kernel, by decide +kernel, by decide +kernel⟩, by decide +kernel, by decide +kernel, by decide +kernel⟩

theorem ex_mpi : Spec.Mpi exEnv.mpiRun := Or.inr ⟨"mpirun --use-hwthread-cpus".toList, by simp [exEnv]⟩

theorem ex_complete (n : Text) : Spec.Complete exEnv { exCrystal with name := n } (fun _ => 28.085) (fun _ => "Si.upf".toList) where
  unit := ⟨by simp [exCrystal], by simp [exCrystal], by simp [exCrystal]⟩
  types := by
    intro t ht
    have : t = "Si".toList := by simpa [exCrystal] using ht
    subst this
    exact ⟨by decide +kernel, by decide +kernel, by decide +kernel⟩
  count := rfl
  basis := by
    intro b hb
    have : b = [0, 0, 0] ∨ b = [0.25, 0.25, 0.25] := by simpa [exCrystal] using hb
    rcases this with rfl | rfl <;> rfl
  order := ⟨by simp [exEnv], by simp [exEnv, exCrystal]⟩
  tables := fun s _ => ⟨rfl, rfl, by decide +kernel, by decide +kernel, by decide +kernel⟩

example : ∃ t w', scf exEnv exCrystal 8 none (some 4) ⟨fun _ => none, []⟩ = (w', .ok ()) ∧ Spec.Ran exEnv exCrystal "pw" "scf" t ⟨fun _ => none, []⟩ w' := by
  obtain ⟨t, w', h1, h2, _⟩ := C148_scf exEnv exCrystal ex_plain ex_name ex_mpi _ _ (ex_complete "si".toList) 8 none (some 4) ⟨fun _ => none, []⟩
  exact ⟨t, w', h1, h2⟩

example : Spec.sizes exEnv exCrystal = [("ibrav".toList, ['1']), ("nat".toList, ['1']), ("ntyp".toList, ['1'])] := rfl

example : Spec.spin exCrystal = [("lspinorb".toList, ".true.".toList), ("noncolin".toList, ".true.".toList)] := rfl

/-- The reader of the specification on a written text. -/
example : settings "system".toList "&control\n a = 1,\n/\n&system\n  nat=2, ntyp= 1,\n  !x = 3\n  degauss=0.02\n/\nK_POINTS gamma\n".toList =
    [("nat".toList, "2".toList), ("ntyp".toList, "1".toList), ("degauss".toList, "0.02".toList)] := by decide +kernel

/-- A missing pseudopotential. -/
example : ∃ w', scf { exEnv with pp := fun _ => none } exCrystal 8 none none ⟨fun _ => some "old".toList, []⟩ = (w', .error .keyError) ∧ w'.commands = [] ∧
    w'.files "si.scf.in".toList = some [] := by
  obtain ⟨w', h1, h2, h3, _⟩ := C148_failing { exEnv with pp := fun _ => none } exCrystal ex_name ⟨fun _ => some "old".toList, []⟩ 8 0 none none false [] .keyError
    (Or.inl ⟨⟨_, List.mem_singleton.2 rfl, Or.inr rfl⟩, rfl⟩) _ (.head _)
  exact ⟨w', h1, h2, h3⟩

/-- `/tmp/si` as name. -/
example : ∃ w' cmd, nscf exEnv { exCrystal with name := "/tmp/si".toList } [] 8 ⟨fun _ => none, []⟩ = (w', .ok ()) ∧ w'.files "/tmp/si.nscf.in".toList = none ∧
    w'.commands = [cmd] ∧ "/tmp/si.nscf.in".toList ∈ words cmd := by
  obtain ⟨w', cmd, h1, h2, _, h4, h5⟩ := C148_absolute exEnv { exCrystal with name := "/tmp/si".toList } ex_plain _ _ (ex_complete _) "tmp/si".toList rfl
    ⟨⟨by decide +kernel, by decide +kernel, by decide +kernel⟩, by decide +kernel, by decide +kernel, by decide +kernel⟩ [] 8 ⟨fun _ => none, []⟩
  exact ⟨w', cmd, h1, h2, h4, h5⟩

end TB.PropsQeInput
