import Verif.Lemmas.Formats
import Mathlib.Data.List.GetD
import Mathlib.Data.List.TakeWhile

/-!
# C32, C33: the Wannier90 readers
-/

set_option linter.unusedSectionVars false

namespace TB.Fmt

variable {F Tok : Type} [Zero F]

/-! ## Specification of the file layout -/

/-- Line `n`, blank behind the end of the file. -/
def Spec.line (lines : List (List Tok)) (n : ℕ) : List Tok := lines.getD n []

/-- The integer that is alone on a line. -/
def Spec.number (pInt : Tok → Option ℤ) : List Tok → Option ℤ
  | [t] => pInt t
  | _ => none

/-- The tokens of the degeneracy list of `tb.dat`: line 6 up to the next blank line. -/
def Spec.tbDeg (lines : List (List Tok)) : List Tok := ((lines.drop 6).takeWhile fun l => !l.isEmpty).flatten

/-- The lines behind that blank line. -/
def Spec.tbBody (lines : List (List Tok)) : List (List Tok) := ((lines.drop 6).dropWhile fun l => !l.isEmpty).drop 1

/-- A body in which every line is acceptable and that has at least one position. -/
def Spec.BodyOk (pInt : Tok → Option ℤ) (pFlt : Tok → Option F) (bc : ℤ) (body : List (List Tok)) : Prop :=
  (∀ a l b, body = a ++ l :: b → Spec.LineOk pInt pFlt bc a l) ∧ Spec.headers pInt body ≠ []

/-- A well-formed `tb.dat`: three lattice vectors of the same dimension, the number of bands, the number of positions,
as many degeneracies, and a well-formed body. -/
def Spec.TbOk (pInt : Tok → Option ℤ) (pFlt : Tok → Option F) (lines : List (List Tok)) : Prop :=
  (∀ n, 1 ≤ n → n ≤ 3 → ∀ t ∈ Spec.line lines n, pFlt t ≠ none) ∧
  (Spec.line lines 1).length = (Spec.line lines 2).length ∧ (Spec.line lines 2).length = (Spec.line lines 3).length ∧
  (∀ t ∈ Spec.tbDeg lines, pInt t ≠ none) ∧
  Spec.number pInt (Spec.line lines 5) = some ((Spec.tbDeg lines).length : ℤ) ∧
  ∃ bc, Spec.number pInt (Spec.line lines 4) = some bc ∧ Spec.BodyOk pInt pFlt bc (Spec.tbBody lines)

/-! ## Auxiliary facts -/

theorem mapM_flt (pFlt : Tok → Option F) (l : List Tok) :
    (∃ r, l.mapM (toFlt pFlt) = .ok r ∧ l.map pFlt = r.map some ∧ ∀ t ∈ l, pFlt t ≠ none) ∨
      (l.mapM (toFlt pFlt) = .error .valueError ∧ ∃ t ∈ l, pFlt t = none) := by
  induction l with
  | nil => exact Or.inl ⟨[], rfl, rfl, by simp⟩
  | cons t l ih =>
    rw [List.mapM_cons]
    cases ht : pFlt t with
    | none => exact Or.inr ⟨by simp [toFlt, ht, Bind.bind, Except.bind], t, by simp, ht⟩
    | some x =>
      rcases ih with ⟨r, h1, h2, h3⟩ | ⟨h1, u, hu, hu'⟩
      · refine Or.inl ⟨x :: r, by simp [toFlt, ht, h1, Bind.bind, Except.bind, Pure.pure, Except.pure], by simp [ht, h2], ?_⟩
        intro u hu
        rcases List.mem_cons.1 hu with rfl | hu
        · simp [ht]
        · exact h3 u hu
      · exact Or.inr ⟨by simp [toFlt, ht, h1, Bind.bind, Except.bind], u, List.mem_cons_of_mem _ hu, hu'⟩

theorem mapM_int (pInt : Tok → Option ℤ) (l : List Tok) :
    (∃ r, l.mapM (toInt pInt) = .ok r ∧ l.map pInt = r.map some ∧ ∀ t ∈ l, pInt t ≠ none) ∨
      (l.mapM (toInt pInt) = .error .valueError ∧ ∃ t ∈ l, pInt t = none) := by
  induction l with
  | nil => exact Or.inl ⟨[], rfl, rfl, by simp⟩
  | cons t l ih =>
    rw [List.mapM_cons]
    cases ht : pInt t with
    | none => exact Or.inr ⟨by simp [toInt, ht, Bind.bind, Except.bind], t, by simp, ht⟩
    | some x =>
      rcases ih with ⟨r, h1, h2, h3⟩ | ⟨h1, u, hu, hu'⟩
      · refine Or.inl ⟨x :: r, by simp [toInt, ht, h1, Bind.bind, Except.bind, Pure.pure, Except.pure], by simp [ht, h2], ?_⟩
        intro u hu
        rcases List.mem_cons.1 hu with rfl | hu
        · simp [ht]
        · exact h3 u hu
      · exact Or.inr ⟨by simp [toInt, ht, h1, Bind.bind, Except.bind], u, List.mem_cons_of_mem _ hu, hu'⟩

theorem lineInt_eq (pInt : Tok → Option ℤ) (l : List Tok) :
    lineInt pInt l = match Spec.number pInt l with
      | some x => .ok x
      | none => .error .valueError := by
  match l with
  | [] => rfl
  | [t] => rfl
  | _ :: _ :: _ => rfl

theorem tbDegeneracy_eq (ls : List (List Tok)) :
    tbDegeneracy ls = ((ls.takeWhile fun l => !l.isEmpty).flatten, (ls.dropWhile fun l => !l.isEmpty).drop 1) := by
  induction ls with
  | nil => rfl
  | cons l ls ih =>
    cases l with
    | nil => simp [tbDegeneracy]
    | cons t l => simp [tbDegeneracy, ih]

/-- The loop and the final step on the body. -/
theorem body_result (sort : List (Block F) → List (Block F)) (hsort : Spec.IsSort sort) (pInt : Tok → Option ℤ) (pFlt : Tok → Option F)
    (bc : ℤ) (body : List (List Tok)) :
    (∃ bl s, readLines (tbLine pInt pFlt bc) ⟨[], none⟩ body = .ok s ∧ finish sort s.blocks = .ok bl ∧ Spec.BodyOk pInt pFlt bc body ∧
      Spec.Content pInt pFlt bc body bl ∧ bl.Pairwise fun a b => Spec.len2 a.pos ≤ Spec.len2 b.pos) ∨
    (¬ Spec.BodyOk pInt pFlt bc body ∧ ((∃ e, readLines (tbLine pInt pFlt bc) (⟨[], none⟩ : St F) body = .error e ∧ (e = .valueError ∨ e = .indexError)) ∨
      ∃ s, readLines (tbLine pInt pFlt bc) ⟨[], none⟩ body = .ok s ∧ finish sort s.blocks = .error .indexError)) := by
  rcases tb_loop (pInt := pInt) (pFlt := pFlt) (bc := bc) body [] ⟨[], none⟩ inv_init with ⟨s, h1, h2, h3⟩ | ⟨e, h1, h2, a, l, b, h3, h4⟩
  · rw [List.nil_append] at h2
    simp only [List.nil_append] at h3
    by_cases hh : Spec.headers pInt body = []
    · refine Or.inr ⟨fun h => h.2 hh, Or.inr ⟨s, h1, ?_⟩⟩
      have : s.blocks = [] := by
        cases hb : s.blocks with
        | nil => rfl
        | cons b bs =>
          have hF := (h2.content.2.1 b.pos).1 (List.mem_map_of_mem (by rw [hb]; exact List.mem_cons_self))
          have := first_mem hF
          rw [hh] at this; simp at this
      simp [finish, this]
    · refine Or.inl ⟨sort s.blocks, s, h1, ?_, ⟨h3, hh⟩, ?_, (hsort s.blocks).2⟩
      · have : s.blocks ≠ [] := by
          intro h0
          obtain ⟨R, hR⟩ := List.exists_mem_of_ne_nil _ hh
          rcases exists_first hR with hF | hF
          · have := (h2.content.2.1 _).2 hF; rw [h0] at this; simp at this
          · have := (h2.content.2.1 _).2 hF; rw [h0] at this; simp at this
        simp [finish, this]
      · have hp := (hsort s.blocks).1
        refine ⟨((hp.map Block.pos).nodup_iff).2 h2.content.1, fun R => ?_, fun b hb => h2.content.2.2 b (hp.mem_iff.1 hb)⟩
        rw [(hp.map Block.pos).mem_iff]
        exact h2.content.2.1 R
  · refine Or.inr ⟨fun h => h4 ?_, Or.inl ⟨e, h1, h2⟩⟩
    rw [List.nil_append]
    exact h.1 a l b h3

theorem loadTb_eq (sort : List (Block F) → List (Block F)) (pInt : Tok → Option ℤ) (pFlt : Tok → Option F) (lines : List (List Tok)) :
    loadTb pInt pFlt sort lines = (do
      let a1 ← (Spec.line lines 1).mapM (toFlt pFlt)
      let a2 ← (Spec.line lines 2).mapM (toFlt pFlt)
      let a3 ← (Spec.line lines 3).mapM (toFlt pFlt)
      if ¬ (a1.length = a2.length ∧ a2.length = a3.length) then .error .valueError
      else
        let bc ← lineInt pInt (Spec.line lines 4)
        let pc ← lineInt pInt (Spec.line lines 5)
        let deg ← (Spec.tbDeg lines).mapM (toInt pInt)
        if pc ≠ deg.length then .error .assertionError
        else
          let s ← readLines (tbLine pInt pFlt bc) ⟨[], none⟩ (Spec.tbBody lines)
          let blocks ← finish sort s.blocks
          return (blocks, deg, [a1, a2, a3])) := by
  have hl : ∀ n, (lines.drop n).headD [] = Spec.line lines n := by
    intro n
    rw [List.headD_eq_head?_getD, List.head?_drop, Spec.line, List.getD_eq_getElem?_getD]
  have h0 : lines.tail = lines.drop 1 := by simp
  unfold loadTb readline
  simp only [h0, List.tail_drop, Nat.reduceAdd, hl, tbDegeneracy_eq, Spec.tbDeg, Spec.tbBody]

/-- All outcomes of `load_tb`. -/
theorem loadTb_cases (sort : List (Block F) → List (Block F)) (hsort : Spec.IsSort sort) (pInt : Tok → Option ℤ) (pFlt : Tok → Option F)
    (lines : List (List Tok)) :
    (∃ bl deg A bc, loadTb pInt pFlt sort lines = .ok (bl, deg, A) ∧ Spec.TbOk pInt pFlt lines ∧
      Spec.number pInt (Spec.line lines 4) = some bc ∧ (Spec.tbDeg lines).map pInt = deg.map some ∧
      [Spec.line lines 1, Spec.line lines 2, Spec.line lines 3].map (List.map pFlt) = A.map (List.map some) ∧
      Spec.Content pInt pFlt bc (Spec.tbBody lines) bl ∧ bl.Pairwise fun a b => Spec.len2 a.pos ≤ Spec.len2 b.pos) ∨
    (∃ e, loadTb pInt pFlt sort lines = .error e ∧ (e = .valueError ∨ e = .indexError ∨ e = .assertionError) ∧ ¬ Spec.TbOk pInt pFlt lines) := by
  rw [loadTb_eq]
  rcases mapM_flt pFlt (Spec.line lines 1) with ⟨a1, e1, m1, o1⟩ | ⟨e1, t, ht, ht'⟩
  swap
  · rw [e1]; exact Or.inr ⟨_, rfl, by simp, fun h => h.1 1 (by omega) (by omega) t ht ht'⟩
  rcases mapM_flt pFlt (Spec.line lines 2) with ⟨a2, e2, m2, o2⟩ | ⟨e2, t, ht, ht'⟩
  swap
  · rw [e1, e2]; exact Or.inr ⟨_, rfl, by simp, fun h => h.1 2 (by omega) (by omega) t ht ht'⟩
  rcases mapM_flt pFlt (Spec.line lines 3) with ⟨a3, e3, m3, o3⟩ | ⟨e3, t, ht, ht'⟩
  swap
  · rw [e1, e2, e3]; exact Or.inr ⟨_, rfl, by simp, fun h => h.1 3 (by omega) (by omega) t ht ht'⟩
  have l1 : (Spec.line lines 1).length = a1.length := by simpa using congrArg List.length m1
  have l2 : (Spec.line lines 2).length = a2.length := by simpa using congrArg List.length m2
  have l3 : (Spec.line lines 3).length = a3.length := by simpa using congrArg List.length m3
  rw [e1, e2, e3]
  simp only [Bind.bind, Except.bind, Pure.pure, Except.pure]
  by_cases hA : a1.length = a2.length ∧ a2.length = a3.length
  swap
  · rw [if_pos hA]; exact Or.inr ⟨_, rfl, by simp, fun h => hA ⟨by rw [← l1, ← l2]; exact h.2.1, by rw [← l2, ← l3]; exact h.2.2.1⟩⟩
  rw [if_neg (not_not.2 hA), lineInt_eq, lineInt_eq]
  cases hbc : Spec.number pInt (Spec.line lines 4) with
  | none => exact Or.inr ⟨_, rfl, by simp, fun h => by obtain ⟨bc, hb, -⟩ := h.2.2.2.2.2; rw [hbc] at hb; simp at hb⟩
  | some bc =>
  cases hpc : Spec.number pInt (Spec.line lines 5) with
  | none => exact Or.inr ⟨_, rfl, by simp, fun h => by have hb := h.2.2.2.2.1; rw [hpc] at hb; simp at hb⟩
  | some pc =>
  simp only
  rcases mapM_int pInt (Spec.tbDeg lines) with ⟨deg, e4, m4, o4⟩ | ⟨e4, t, ht, ht'⟩
  swap
  · rw [e4]; exact Or.inr ⟨_, rfl, by simp, fun h => h.2.2.2.1 t ht ht'⟩
  rw [e4]
  simp only
  have l4 : (Spec.tbDeg lines).length = deg.length := by simpa using congrArg List.length m4
  by_cases hd : pc = deg.length
  swap
  · rw [if_pos hd]
    refine Or.inr ⟨_, rfl, by simp, fun h => hd ?_⟩
    have hb := h.2.2.2.2.1
    rw [hpc, l4] at hb; exact Option.some.inj hb
  rw [if_neg (not_not.2 hd)]
  rcases body_result sort hsort pInt pFlt bc (Spec.tbBody lines) with ⟨bl, s, h1, h2, h3, h4, h5⟩ | ⟨hn, ⟨e, h1, h2⟩ | ⟨s, h1, h2⟩⟩
  · rw [h1]
    simp only [h2]
    refine Or.inl ⟨bl, deg, [a1, a2, a3], bc, rfl, ⟨?_, by rw [l1, l2]; exact hA.1, by rw [l2, l3]; exact hA.2, o4, by rw [hpc, l4, hd], bc, hbc, h3⟩,
      rfl, m4, by simp [m1, m2, m3], h4, h5⟩
    intro n hn1 hn3 t ht
    have : n = 1 ∨ n = 2 ∨ n = 3 := by omega
    rcases this with rfl | rfl | rfl
    · exact o1 t ht
    · exact o2 t ht
    · exact o3 t ht
  · rw [h1]
    refine Or.inr ⟨e, rfl, by tauto, fun h => hn ?_⟩
    obtain ⟨bc', hb, ho⟩ := h.2.2.2.2.2
    rw [hbc] at hb
    rw [Option.some.inj hb]; exact ho
  · rw [h1]
    simp only [h2]
    refine Or.inr ⟨_, rfl, by simp, fun h => hn ?_⟩
    obtain ⟨bc', hb, ho⟩ := h.2.2.2.2.2
    rw [hbc] at hb
    rw [Option.some.inj hb]; exact ho

/-! ## C32 -/

/-- C32.  What `load_tb` returns: one matrix for each pair `±R` of the file, under the sign that comes first; each matrix
entry is the last one the file gives for that `R` (zero if none); the blocks are sorted by length; the degeneracies and
the lattice vectors are those of the file. -/
theorem C32_content (sort : List (Block F) → List (Block F)) (hsort : Spec.IsSort sort) (pInt : Tok → Option ℤ) (pFlt : Tok → Option F)
    (lines : List (List Tok)) (bl : List (Block F)) (deg : List ℤ) (A : List (List F))
    (h : loadTb pInt pFlt sort lines = .ok (bl, deg, A)) :
    (bl.Pairwise fun a b => Spec.len2 a.pos ≤ Spec.len2 b.pos) ∧ (Spec.tbDeg lines).map pInt = deg.map some ∧
      [Spec.line lines 1, Spec.line lines 2, Spec.line lines 3].map (List.map pFlt) = A.map (List.map some) ∧
      ∃ bc, Spec.number pInt (Spec.line lines 4) = some bc ∧ Spec.Content pInt pFlt bc (Spec.tbBody lines) bl := by
  rcases loadTb_cases sort hsort pInt pFlt lines with ⟨bl', deg', A', bc, h1, -, h2, h3, h4, h5, h6⟩ | ⟨e, h1, -⟩
  · rw [h1] at h
    simp only [Except.ok.injEq, Prod.mk.injEq] at h
    obtain ⟨rfl, rfl, rfl⟩ := h
    exact ⟨h6, h3, h4, bc, h2, h5⟩
  · rw [h1] at h; simp at h

/-- C32.  The positions of the result are pairwise different, never contain both `R` and `-R` for `R ≠ 0`, all come from the
file, and every position of the file is there or its negative is. -/
theorem C32_pairs (sort : List (Block F) → List (Block F)) (hsort : Spec.IsSort sort) (pInt : Tok → Option ℤ) (pFlt : Tok → Option F)
    (lines : List (List Tok)) (bl : List (Block F)) (deg : List ℤ) (A : List (List F))
    (h : loadTb pInt pFlt sort lines = .ok (bl, deg, A)) :
    (bl.map Block.pos).Nodup ∧ (∀ R ∈ bl.map Block.pos, R ∈ Spec.headers pInt (Spec.tbBody lines)) ∧
      (∀ R, R ∈ bl.map Block.pos → -R ∈ bl.map Block.pos → R = 0) ∧
      ∀ R ∈ Spec.headers pInt (Spec.tbBody lines), R ∈ bl.map Block.pos ∨ -R ∈ bl.map Block.pos := by
  obtain ⟨-, -, -, bc, -, hc⟩ := C32_content sort hsort pInt pFlt lines bl deg A h
  refine ⟨hc.1, fun R hR => first_mem ((hc.2.1 R).1 hR), fun R h1 h2 => ?_, fun R hR => ?_⟩
  · have := two_first ((hc.2.1 _).1 h1) ((hc.2.1 _).1 h2)
    obtain ⟨x, y, z⟩ := R
    simp only [Prod.neg_mk, Prod.mk.injEq] at this
    have e1 : x = 0 := by omega
    have e2 : y = 0 := by omega
    have e3 : z = 0 := by omega
    rw [e1, e2, e3]; rfl
  · rw [hc.2.1, hc.2.1]; exact exists_first hR

/-- C32.  `load_tb` returns exactly for the well-formed files. -/
theorem C32_accepts (sort : List (Block F) → List (Block F)) (hsort : Spec.IsSort sort) (pInt : Tok → Option ℤ) (pFlt : Tok → Option F)
    (lines : List (List Tok)) : (∃ r, loadTb pInt pFlt sort lines = .ok r) ↔ Spec.TbOk pInt pFlt lines := by
  rcases loadTb_cases sort hsort pInt pFlt lines with ⟨bl, deg, A, bc, h1, h2, -⟩ | ⟨e, h1, -, h2⟩
  · exact ⟨fun _ => h2, fun _ => ⟨_, h1⟩⟩
  · refine ⟨fun ⟨r, hr⟩ => ?_, fun h => absurd h h2⟩
    rw [h1] at hr; simp at hr

/-- C32.  It raises `ValueError`, `IndexError` or `AssertionError` for all others. -/
theorem C32_errors (sort : List (Block F) → List (Block F)) (hsort : Spec.IsSort sort) (pInt : Tok → Option ℤ) (pFlt : Tok → Option F)
    (lines : List (List Tok)) (e : Err) (h : loadTb pInt pFlt sort lines = .error e) :
    e = .valueError ∨ e = .indexError ∨ e = .assertionError := by
  rcases loadTb_cases sort hsort pInt pFlt lines with ⟨bl, deg, A, bc, h1, h2, -⟩ | ⟨e', h1, he, h2⟩
  · rw [h1] at h; simp at h
  · rw [h1] at h
    simp only [Except.error.injEq] at h
    exact h ▸ he

theorem tbLine_count (pInt : Tok → Option ℤ) (pFlt : Tok → Option F) (bc : ℤ) (s : St F) (l : List Tok)
    (h0 : l.length ≠ 0) (h3 : l.length ≠ 3) (h4 : l.length ≠ 4) (h8 : l.length ≠ 8) : tbLine pInt pFlt bc s l = .error .valueError := by
  match l with
  | [] => simp at h0
  | [_] => rfl
  | [_, _] => rfl
  | [_, _, _] => simp at h3
  | [_, _, _, _] => simp at h4
  | [_, _, _, _, _] => rfl
  | [_, _, _, _, _, _] => rfl
  | [_, _, _, _, _, _, _] => rfl
  | [_, _, _, _, _, _, _, _] => simp at h8
  | _ :: _ :: _ :: _ :: _ :: _ :: _ :: _ :: _ :: _ => rfl

/-- The part of a `tb.dat` above the body is well-formed. -/
def Spec.HeadOk (pInt : Tok → Option ℤ) (pFlt : Tok → Option F) (lines : List (List Tok)) (bc : ℤ) : Prop :=
  (∀ n, 1 ≤ n → n ≤ 3 → ∀ t ∈ Spec.line lines n, pFlt t ≠ none) ∧
  (Spec.line lines 1).length = (Spec.line lines 2).length ∧ (Spec.line lines 2).length = (Spec.line lines 3).length ∧
  (∀ t ∈ Spec.tbDeg lines, pInt t ≠ none) ∧
  Spec.number pInt (Spec.line lines 5) = some ((Spec.tbDeg lines).length : ℤ) ∧
  Spec.number pInt (Spec.line lines 4) = some bc

theorem loadTb_head (sort : List (Block F) → List (Block F)) (pInt : Tok → Option ℤ) (pFlt : Tok → Option F)
    (lines : List (List Tok)) (bc : ℤ) (h : Spec.HeadOk pInt pFlt lines bc) (e : Err)
    (hb : readLines (tbLine pInt pFlt bc) (⟨[], none⟩ : St F) (Spec.tbBody lines) = .error e) :
    loadTb pInt pFlt sort lines = .error e := by
  obtain ⟨hp, hl1, hl2, hd, hpc, hbc⟩ := h
  rw [loadTb_eq]
  rcases mapM_flt pFlt (Spec.line lines 1) with ⟨a1, e1, m1, -⟩ | ⟨-, t, ht, ht'⟩
  swap
  · exact absurd ht' (hp 1 (by omega) (by omega) t ht)
  rcases mapM_flt pFlt (Spec.line lines 2) with ⟨a2, e2, m2, -⟩ | ⟨-, t, ht, ht'⟩
  swap
  · exact absurd ht' (hp 2 (by omega) (by omega) t ht)
  rcases mapM_flt pFlt (Spec.line lines 3) with ⟨a3, e3, m3, -⟩ | ⟨-, t, ht, ht'⟩
  swap
  · exact absurd ht' (hp 3 (by omega) (by omega) t ht)
  rcases mapM_int pInt (Spec.tbDeg lines) with ⟨deg, e4, m4, -⟩ | ⟨-, t, ht, ht'⟩
  swap
  · exact absurd ht' (hd t ht)
  have l1 : (Spec.line lines 1).length = a1.length := by simpa using congrArg List.length m1
  have l2 : (Spec.line lines 2).length = a2.length := by simpa using congrArg List.length m2
  have l3 : (Spec.line lines 3).length = a3.length := by simpa using congrArg List.length m3
  have l4 : (Spec.tbDeg lines).length = deg.length := by simpa using congrArg List.length m4
  rw [e1, e2, e3]
  simp only [Bind.bind, Except.bind, Pure.pure, Except.pure]
  rw [if_neg (not_not.2 ⟨by rw [← l1, ← l2]; exact hl1, by rw [← l2, ← l3]; exact hl2⟩), lineInt_eq, lineInt_eq, hbc, hpc, e4]
  simp only
  rw [if_neg (not_not.2 (by rw [l4])), hb]

/-- C32.  If everything up to a line of the body is well-formed and that line has a number of tokens other than 0, 3, 4
or 8, `ValueError` is raised. -/
theorem C32_malformed (sort : List (Block F) → List (Block F)) (pInt : Tok → Option ℤ) (pFlt : Tok → Option F)
    (lines a b : List (List Tok)) (l : List Tok) (bc : ℤ) (hh : Spec.HeadOk pInt pFlt lines bc)
    (hb : Spec.tbBody lines = a ++ l :: b) (ha : ∀ c x d, a = c ++ x :: d → Spec.LineOk pInt pFlt bc c x)
    (hl : l.length ∉ [0, 3, 4, 8]) : loadTb pInt pFlt sort lines = .error .valueError := by
  apply loadTb_head sort pInt pFlt lines bc hh
  rw [hb]
  unfold readLines
  rw [List.foldlM_append]
  rcases tb_loop (pInt := pInt) (pFlt := pFlt) (bc := bc) a [] ⟨[], none⟩ inv_init with ⟨s, h1, -⟩ | ⟨e, -, -, c, x, d, h3, h4⟩
  · unfold readLines at h1
    rw [h1]
    simp only [List.mem_cons, List.not_mem_nil, or_false, not_or] at hl
    change (tbLine pInt pFlt bc s l).bind _ = _
    rw [tbLine_count pInt pFlt bc s l hl.1 hl.2.1 hl.2.2.1 hl.2.2.2]
    rfl
  · exact absurd (ha c x d h3) h4

/-! ## C33 -/

/-- A line `n₁ n₂ n₃ i j re im` of `hr.dat` written as the two lines of `tb.dat`. -/
def Spec.expand : List Tok → List (List Tok)
  | [a, b, c, i, j, u, v] => [[a, b, c], [i, j, u, v]]
  | l => [l]

/-- A well-formed body of `hr.dat`: blank lines and lines of seven tokens, whose contents are well-formed. -/
def Spec.HrBodyOk (pInt : Tok → Option ℤ) (pFlt : Tok → Option F) (bc : ℤ) (body : List (List Tok)) : Prop :=
  (∀ l ∈ body, l.length = 0 ∨ l.length = 7) ∧ Spec.BodyOk pInt pFlt bc (body.flatMap Spec.expand)

theorem hrLine_seven (pInt : Tok → Option ℤ) (pFlt : Tok → Option F) (bc : ℤ) (s s' : St F) (h : s.blocks = s'.blocks)
    (a b c i j u v : Tok) :
    (hrLine pInt pFlt bc s [a, b, c, i, j, u, v]).map St.blocks =
      ((tbLine pInt pFlt bc s' [a, b, c]).bind fun t => tbLine pInt pFlt bc t [i, j, u, v]).map St.blocks := by
  unfold hrLine tbLine
  rw [h]
  cases ha : pInt a with
  | none => simp only [toInt, ha, Bind.bind, Except.bind]
  | some x =>
  cases hb : pInt b with
  | none => simp only [toInt, ha, hb, Bind.bind, Except.bind]
  | some y =>
  cases hc : pInt c with
  | none => simp only [toInt, ha, hb, hc, Bind.bind, Except.bind]
  | some z =>
  simp only [toInt, ha, hb, hc, Bind.bind, Except.bind]
  have hen : ∀ t, enter bc s'.blocks (x, y, z) = .ok t → t.index = none → t.blocks = s'.blocks := by
    intro t ht hn
    unfold enter at ht
    split at ht
    · simp only [Except.ok.injEq] at ht; rw [← ht] at hn; simp at hn
    · split at ht
      · simp only [Except.ok.injEq] at ht; rw [← ht]
      · split at ht
        · simp at ht
        · simp only [Except.ok.injEq] at ht; rw [← ht] at hn; simp at hn
  cases hr : enter bc s'.blocks (x, y, z) with
  | error e => rfl
  | ok t =>
    simp only
    cases hk : t.index with
    | none => simp only [Except.map, Pure.pure, Except.pure]; rw [hen t hr hk]
    | some k => rfl

theorem map_bind_congr {r r' : Except Err (St F)} {f g : St F → Except Err (St F)}
    (h : r.map St.blocks = r'.map St.blocks)
    (hfg : ∀ s s', s.blocks = s'.blocks → (f s).map St.blocks = (g s').map St.blocks) :
    (r.bind f).map St.blocks = (r'.bind g).map St.blocks := by
  cases r <;> cases r' <;> simp only [Except.map, Except.ok.injEq, reduceCtorEq, Except.error.injEq] at h
  · rw [h]; rfl
  · exact hfg _ _ h

/-- The loop of `load_hr` is the loop of `load_tb` on the expanded lines. -/
theorem hr_loop (pInt : Tok → Option ℤ) (pFlt : Tok → Option F) (bc : ℤ) (body : List (List Tok))
    (hb : ∀ l ∈ body, l.length = 0 ∨ l.length = 7) : ∀ s s' : St F, s.blocks = s'.blocks →
    (readLines (hrLine pInt pFlt bc) s body).map St.blocks =
      (readLines (tbLine pInt pFlt bc) s' (body.flatMap Spec.expand)).map St.blocks := by
  induction body with
  | nil => intro s s' h; exact congrArg Except.ok h
  | cons l ls ih =>
    intro s s' h
    have ih' := ih fun x hx => hb x (List.mem_cons_of_mem _ hx)
    have e1 : readLines (hrLine pInt pFlt bc) s (l :: ls) = (hrLine pInt pFlt bc s l).bind fun t => readLines (hrLine pInt pFlt bc) t ls := rfl
    rw [e1]
    match l, hb l List.mem_cons_self with
    | [], _ => exact ih' s s' h
    | [a, b, c, i, j, u, v], _ =>
      have e2 : readLines (tbLine pInt pFlt bc) s' (([a, b, c, i, j, u, v] :: ls).flatMap Spec.expand) =
          ((tbLine pInt pFlt bc s' [a, b, c]).bind fun t => tbLine pInt pFlt bc t [i, j, u, v]).bind fun t =>
            readLines (tbLine pInt pFlt bc) t (ls.flatMap Spec.expand) := by
        have : ([a, b, c, i, j, u, v] :: ls).flatMap Spec.expand = [a, b, c] :: [i, j, u, v] :: ls.flatMap Spec.expand := rfl
        rw [this]
        change (tbLine pInt pFlt bc s' [a, b, c]).bind (fun t => (tbLine pInt pFlt bc t [i, j, u, v]).bind _) = _
        cases tbLine pInt pFlt bc s' [a, b, c] <;> rfl
      rw [e2]
      exact map_bind_congr (hrLine_seven pInt pFlt bc s s' h a b c i j u v) ih'
    | [_], h7 => simp at h7
    | [_, _], h7 => simp at h7
    | [_, _, _], h7 => simp at h7
    | [_, _, _, _], h7 => simp at h7
    | [_, _, _, _, _], h7 => simp at h7
    | [_, _, _, _, _, _], h7 => simp at h7
    | _ :: _ :: _ :: _ :: _ :: _ :: _ :: _ :: _, h7 => simp only [List.length_cons] at h7; omega

theorem hrLine_count (pInt : Tok → Option ℤ) (pFlt : Tok → Option F) (bc : ℤ) (s : St F) (l : List Tok)
    (h : ¬ (l.length = 0 ∨ l.length = 7)) : hrLine pInt pFlt bc s l = .error .valueError := by
  match l with
  | [] => simp at h
  | [_] => rfl
  | [_, _] => rfl
  | [_, _, _] => rfl
  | [_, _, _, _] => rfl
  | [_, _, _, _, _] => rfl
  | [_, _, _, _, _, _] => rfl
  | [_, _, _, _, _, _, _] => simp at h
  | _ :: _ :: _ :: _ :: _ :: _ :: _ :: _ :: _ => rfl

theorem hr_body (sort : List (Block F) → List (Block F)) (hsort : Spec.IsSort sort) (pInt : Tok → Option ℤ) (pFlt : Tok → Option F)
    (bc : ℤ) (body : List (List Tok)) :
    (∃ bl s, readLines (hrLine pInt pFlt bc) ⟨[], none⟩ body = .ok s ∧ finish sort s.blocks = .ok bl ∧ Spec.HrBodyOk pInt pFlt bc body ∧
      Spec.Content pInt pFlt bc (body.flatMap Spec.expand) bl ∧ bl.Pairwise fun a b => Spec.len2 a.pos ≤ Spec.len2 b.pos) ∨
    (¬ Spec.HrBodyOk pInt pFlt bc body ∧ ((∃ e, readLines (hrLine pInt pFlt bc) (⟨[], none⟩ : St F) body = .error e ∧ (e = .valueError ∨ e = .indexError)) ∨
      ∃ s, readLines (hrLine pInt pFlt bc) ⟨[], none⟩ body = .ok s ∧ finish sort s.blocks = .error .indexError)) := by
  by_cases hb : ∀ l ∈ body, l.length = 0 ∨ l.length = 7
  · have hloop := hr_loop pInt pFlt bc body hb (⟨[], none⟩ : St F) ⟨[], none⟩ rfl
    have conv : ∀ s', readLines (tbLine pInt pFlt bc) ⟨[], none⟩ (body.flatMap Spec.expand) = .ok s' →
        ∃ s, readLines (hrLine pInt pFlt bc) ⟨[], none⟩ body = .ok s ∧ s.blocks = s'.blocks := by
      intro s' hs'
      rw [hs'] at hloop
      cases hr : readLines (hrLine pInt pFlt bc) (⟨[], none⟩ : St F) body with
      | error e => rw [hr] at hloop; simp [Except.map] at hloop
      | ok s => rw [hr] at hloop; exact ⟨s, rfl, Except.ok.inj hloop⟩
    rcases body_result sort hsort pInt pFlt bc (body.flatMap Spec.expand) with ⟨bl, s, h1, h2, h3, h4, h5⟩ | ⟨hn, ⟨e, h1, h2⟩ | ⟨s, h1, h2⟩⟩
    · obtain ⟨s', hs', he⟩ := conv s h1
      exact Or.inl ⟨bl, s', hs', he ▸ h2, ⟨hb, h3⟩, h4, h5⟩
    · refine Or.inr ⟨fun h => hn h.2, Or.inl ⟨e, ?_, h2⟩⟩
      rw [h1] at hloop
      cases hr : readLines (hrLine pInt pFlt bc) (⟨[], none⟩ : St F) body with
      | error e' => rw [hr] at hloop; rw [Except.error.inj hloop]
      | ok s => rw [hr] at hloop; simp [Except.map] at hloop
    · obtain ⟨s', hs', he⟩ := conv s h1
      exact Or.inr ⟨fun h => hn h.2, Or.inr ⟨s', hs', he ▸ h2⟩⟩
  · refine Or.inr ⟨fun h => hb h.1, Or.inl ?_⟩
    -- the first line with another number of tokens
    have split : ∃ a l b, body = a ++ l :: b ∧ (∀ x ∈ a, x.length = 0 ∨ x.length = 7) ∧ ¬ (l.length = 0 ∨ l.length = 7) := by
      clear hsort
      induction body with
      | nil => exact absurd (by simp) hb
      | cons x xs ih =>
        by_cases hx : x.length = 0 ∨ x.length = 7
        · have : ¬ ∀ l ∈ xs, l.length = 0 ∨ l.length = 7 := by
            intro h'
            apply hb
            intro l hl
            rcases List.mem_cons.1 hl with rfl | hl
            · exact hx
            · exact h' l hl
          obtain ⟨a, l, b, h1, h2, h3⟩ := ih this
          refine ⟨x :: a, l, b, by rw [h1]; rfl, ?_, h3⟩
          intro y hy
          rcases List.mem_cons.1 hy with rfl | hy
          · exact hx
          · exact h2 y hy
        · exact ⟨[], x, xs, rfl, by simp, hx⟩
    obtain ⟨a, l, b, rfl, ha, hl⟩ := split
    have hloop := hr_loop pInt pFlt bc a ha (⟨[], none⟩ : St F) ⟨[], none⟩ rfl
    unfold readLines
    rw [List.foldlM_append]
    change ∃ e, (readLines (hrLine pInt pFlt bc) ⟨[], none⟩ a).bind _ = _ ∧ _
    cases hr : readLines (hrLine pInt pFlt bc) (⟨[], none⟩ : St F) a with
    | ok s =>
      refine ⟨.valueError, ?_, by simp⟩
      change (hrLine pInt pFlt bc s l).bind _ = _
      rw [hrLine_count pInt pFlt bc s l hl]; rfl
    | error e =>
      refine ⟨e, rfl, ?_⟩
      rcases tb_loop (pInt := pInt) (pFlt := pFlt) (bc := bc) (a.flatMap Spec.expand) [] ⟨[], none⟩ inv_init with ⟨s, h1, -⟩ | ⟨e', h1, h2, -⟩
      · rw [h1, hr] at hloop; simp [Except.map] at hloop
      · rw [h1, hr] at hloop; rw [Except.error.inj hloop]; exact h2

/-- The degeneracy list of `hr.dat` takes the first `n` of the lines: the least number, at least one, with `pc` tokens or more. -/
def Spec.Takes (rest : List (List Tok)) (pc : ℤ) (n : ℕ) : Prop :=
  1 ≤ n ∧ pc ≤ (rest.take n).flatten.length ∧ ∀ m, 1 ≤ m → m < n → ((rest.take m).flatten.length : ℤ) < pc

theorem readline_take (ls : List (List Tok)) (n : ℕ) : (readline ls).1 ++ ((readline ls).2.take n).flatten = (ls.take (n + 1)).flatten := by
  cases ls with
  | nil => simp [readline]
  | cons l ls => simp [readline]

theorem hrDeg_eq (pc : ℤ) (n : ℕ) : ∀ (acc : List Tok) (ls : List (List Tok)), 1 ≤ n → pc ≤ acc.length + (ls.take n).flatten.length →
    (∀ m, 1 ≤ m → m < n → (acc.length : ℤ) + (ls.take m).flatten.length < pc) → ∀ fuel,
    hrDegeneracy pc fuel acc ls = if n ≤ fuel then some (acc ++ (ls.take n).flatten, ls.drop n) else none := by
  induction n with
  | zero => intro acc ls h; omega
  | succ n ih =>
    intro acc ls _ hp hm fuel
    cases fuel with
    | zero => rw [if_neg (by omega)]; rfl
    | succ fuel =>
      have hdrop : ∀ m, (readline ls).2.drop m = ls.drop (m + 1) := by
        intro m; cases ls <;> simp [readline]
      unfold hrDegeneracy
      simp only
      by_cases hn : n = 0
      · subst hn
        have h1 : (readline ls).1 = (ls.take 1).flatten := by simpa using readline_take ls 0
        rw [if_pos (by rw [h1]; simpa using hp), if_pos (by omega), h1]
        have := hdrop 0
        simp only [List.drop_zero] at this
        rw [this]
      · have h1 : (readline ls).1 = (ls.take 1).flatten := by simpa using readline_take ls 0
        have hlt := hm 1 (by omega) (by omega)
        rw [if_neg (by rw [List.length_append, h1]; push_cast; omega)]
        rw [ih (acc ++ (readline ls).1) (readline ls).2 (by omega) ?_ ?_]
        · rw [List.append_assoc, readline_take, hdrop]
          by_cases hf : n ≤ fuel
          · rw [if_pos hf, if_pos (by omega)]
          · rw [if_neg hf, if_neg (by omega)]
        · rw [← readline_take, List.length_append] at hp
          rw [List.length_append]; push_cast at hp ⊢; omega
        · intro m hm1 hmn
          have := hm (m + 1) (by omega) (by omega)
          rw [← readline_take, List.length_append] at this
          rw [List.length_append]; push_cast at this ⊢; omega

theorem hrDeg_none (pc : ℤ) (fuel : ℕ) : ∀ (acc : List Tok) (ls : List (List Tok)), (acc.length : ℤ) + ls.flatten.length < pc →
    hrDegeneracy pc fuel acc ls = none := by
  induction fuel with
  | zero => intro acc ls _; rfl
  | succ fuel ih =>
    intro acc ls h
    unfold hrDegeneracy
    have e : ((readline ls).1.length : ℤ) + (readline ls).2.flatten.length = ls.flatten.length := by
      cases ls <;> simp [readline]
    simp only
    rw [if_neg (by rw [List.length_append]; push_cast; omega)]
    exact ih _ _ (by rw [List.length_append]; push_cast; omega)

theorem takes_exists (ls : List (List Tok)) (pc : ℤ) (h : pc ≤ ls.flatten.length) : ∃ n, Spec.Takes ls pc n := by
  have hex : ∃ n, 1 ≤ n ∧ pc ≤ (ls.take n).flatten.length := ⟨ls.length + 1, by omega, by rw [List.take_of_length_le (by omega)]; exact h⟩
  classical
  refine ⟨Nat.find hex, (Nat.find_spec hex).1, (Nat.find_spec hex).2, fun m h1 h2 => ?_⟩
  have := Nat.find_min hex h2
  by_contra hc
  exact this ⟨h1, by omega⟩

theorem flatten_take_le (ls : List (List Tok)) (n : ℕ) : (ls.take n).flatten.length ≤ ls.flatten.length := by
  conv_rhs => rw [← List.take_append_drop n ls, List.flatten_append, List.length_append]
  exact Nat.le_add_right _ _

/-- All outcomes of `load_hr`. -/
theorem loadHr_cases (sort : List (Block F) → List (Block F)) (pInt : Tok → Option ℤ) (pFlt : Tok → Option F) (lines : List (List Tok)) :
    ((Spec.number pInt (Spec.line lines 1) = none ∨ Spec.number pInt (Spec.line lines 2) = none) ∧
      ∀ fuel, loadHr pInt pFlt sort fuel lines = some (.error .valueError)) ∨
    (∃ bc pc, Spec.number pInt (Spec.line lines 1) = some bc ∧ Spec.number pInt (Spec.line lines 2) = some pc ∧
      (((lines.drop 3).flatten.length < pc ∧ ∀ fuel, loadHr pInt pFlt sort fuel lines = none) ∨
        ∃ n, Spec.Takes (lines.drop 3) pc n ∧ pc ≤ (lines.drop 3).flatten.length ∧ ∀ fuel, loadHr pInt pFlt sort fuel lines =
          if n ≤ fuel then some (do
            let deg ← ((lines.drop 3).take n).flatten.mapM (toInt pInt)
            if pc ≠ deg.length then .error .assertionError
            else
              let s ← readLines (hrLine pInt pFlt bc) ⟨[], none⟩ ((lines.drop 3).drop n)
              finish sort s.blocks) else none)) := by
  have hl : ∀ n, (lines.drop n).headD [] = Spec.line lines n := by
    intro n
    rw [List.headD_eq_head?_getD, List.head?_drop, Spec.line, List.getD_eq_getElem?_getD]
  have h0 : lines.tail = lines.drop 1 := by simp
  have hdef : ∀ fuel, loadHr pInt pFlt sort fuel lines =
      match lineInt pInt (Spec.line lines 1) with
      | .error e => some (.error e)
      | .ok bc =>
        match lineInt pInt (Spec.line lines 2) with
        | .error e => some (.error e)
        | .ok pc =>
          match hrDegeneracy pc fuel [] (lines.drop 3) with
          | none => none
          | some (toks, lines) => some (do
            let deg ← toks.mapM (toInt pInt)
            if pc ≠ deg.length then .error .assertionError
            else
              let s ← readLines (hrLine pInt pFlt bc) ⟨[], none⟩ lines
              finish sort s.blocks) := by
    intro fuel
    unfold loadHr readline
    simp only [h0, List.tail_drop, Nat.reduceAdd, hl]
    rfl
  cases hbc : Spec.number pInt (Spec.line lines 1) with
  | none => refine Or.inl ⟨by simp, fun fuel => ?_⟩; rw [hdef, lineInt_eq, hbc]
  | some bc =>
  cases hpc : Spec.number pInt (Spec.line lines 2) with
  | none => refine Or.inl ⟨by simp, fun fuel => ?_⟩; rw [hdef, lineInt_eq, hbc, lineInt_eq, hpc]
  | some pc =>
  refine Or.inr ⟨bc, pc, rfl, rfl, ?_⟩
  by_cases hlt : ((lines.drop 3).flatten.length : ℤ) < pc
  · refine Or.inl ⟨hlt, fun fuel => ?_⟩
    rw [hdef, lineInt_eq, hbc, lineInt_eq, hpc]
    simp only
    rw [hrDeg_none pc fuel [] (lines.drop 3) (by simpa using hlt)]
  · obtain ⟨n, hn⟩ := takes_exists (lines.drop 3) pc (by omega)
    refine Or.inr ⟨n, hn, by omega, fun fuel => ?_⟩
    rw [hdef, lineInt_eq, hbc, lineInt_eq, hpc]
    simp only
    rw [hrDeg_eq pc n [] (lines.drop 3) hn.1 (by simpa using hn.2.1) (by simpa using hn.2.2)]
    by_cases hf : n ≤ fuel
    · rw [if_pos hf, if_pos hf]; rfl
    · rw [if_neg hf, if_neg hf]

/-- C33 (defect).  `load_hr` runs forever exactly when the band count and the number of positions are readable and the rest
of the file has fewer tokens than the announced number of degeneracies. -/
theorem C33_hangs (sort : List (Block F) → List (Block F)) (pInt : Tok → Option ℤ) (pFlt : Tok → Option F) (lines : List (List Tok)) :
    (∀ fuel, loadHr pInt pFlt sort fuel lines = none) ↔
      ∃ bc pc, Spec.number pInt (Spec.line lines 1) = some bc ∧ Spec.number pInt (Spec.line lines 2) = some pc ∧
        ((lines.drop 3).flatten.length : ℤ) < pc := by
  rcases loadHr_cases sort pInt pFlt lines with ⟨h1, h2⟩ | ⟨bc, pc, h1, h2, ⟨h3, h4⟩ | ⟨n, h3, h4, h5⟩⟩
  · constructor
    · intro h; have := h 0; rw [h2] at this; simp at this
    · rintro ⟨bc, pc, hb, hp, -⟩
      rcases h1 with h1 | h1
      · rw [h1] at hb; simp at hb
      · rw [h1] at hp; simp at hp
  · exact ⟨fun _ => ⟨bc, pc, h1, h2, h3⟩, fun _ => h4⟩
  · constructor
    · intro h; have := h n; rw [h5, if_pos le_rfl] at this; simp at this
    · rintro ⟨bc', pc', -, hp, hlt⟩
      rw [h2] at hp
      obtain rfl := Option.some.inj hp
      omega

/-- C33.  More rounds never change an outcome. -/
theorem C33_deterministic (sort : List (Block F) → List (Block F)) (pInt : Tok → Option ℤ) (pFlt : Tok → Option F) (lines : List (List Tok))
    (fuel fuel' : ℕ) (hf : fuel ≤ fuel') (r : Except Err (List (Block F))) (h : loadHr pInt pFlt sort fuel lines = some r) :
    loadHr pInt pFlt sort fuel' lines = some r := by
  rcases loadHr_cases sort pInt pFlt lines with ⟨h1, h2⟩ | ⟨bc, pc, h1, h2, ⟨h3, h4⟩ | ⟨n, h3, h4, h5⟩⟩
  · rw [h2] at h ⊢; exact h
  · rw [h4] at h; simp at h
  · by_cases hn : n ≤ fuel
    · rw [h5, if_pos hn] at h; rw [h5, if_pos (by omega)]; exact h
    · rw [h5, if_neg hn] at h; simp at h

/-- A well-formed `hr.dat`. -/
def Spec.HrOk (pInt : Tok → Option ℤ) (pFlt : Tok → Option F) (lines : List (List Tok)) (bc : ℤ) (n : ℕ) : Prop :=
  Spec.number pInt (Spec.line lines 1) = some bc ∧
  Spec.number pInt (Spec.line lines 2) = some (((lines.drop 3).take n).flatten.length : ℤ) ∧
  Spec.Takes (lines.drop 3) (((lines.drop 3).take n).flatten.length : ℤ) n ∧
  (∀ t ∈ ((lines.drop 3).take n).flatten, pInt t ≠ none) ∧ Spec.HrBodyOk pInt pFlt bc ((lines.drop 3).drop n)

theorem takes_unique {rest : List (List Tok)} {pc : ℤ} {n m : ℕ} (h : Spec.Takes rest pc n) (h' : Spec.Takes rest pc m) : n = m := by
  rcases lt_trichotomy n m with hlt | heq | hlt
  · have := h'.2.2 n h.1 hlt; have := h.2.1; omega
  · exact heq
  · have := h.2.2 m h'.1 hlt; have := h'.2.1; omega

theorem loadHr_main (sort : List (Block F) → List (Block F)) (hsort : Spec.IsSort sort) (pInt : Tok → Option ℤ) (pFlt : Tok → Option F)
    (lines : List (List Tok)) (fuel : ℕ) (r : Except Err (List (Block F))) (h : loadHr pInt pFlt sort fuel lines = some r) :
    (∃ bl bc n, r = .ok bl ∧ n ≤ fuel ∧ Spec.HrOk pInt pFlt lines bc n ∧
      Spec.Content pInt pFlt bc (((lines.drop 3).drop n).flatMap Spec.expand) bl ∧ bl.Pairwise fun a b => Spec.len2 a.pos ≤ Spec.len2 b.pos) ∨
    (∃ e, r = .error e ∧ (e = .valueError ∨ e = .indexError ∨ e = .assertionError) ∧ ∀ bc n, ¬ Spec.HrOk pInt pFlt lines bc n) := by
  rcases loadHr_cases sort pInt pFlt lines with ⟨h1, h2⟩ | ⟨bc, pc, h1, h2, ⟨h3, h4⟩ | ⟨n, h3, h4, h5⟩⟩
  · rw [h2] at h
    refine Or.inr ⟨.valueError, (Option.some.inj h).symm, by simp, ?_⟩
    rintro bc n ⟨hb, hp, -⟩
    rcases h1 with h1 | h1
    · rw [h1] at hb; simp at hb
    · rw [h1] at hp; simp at hp
  · rw [h4] at h; simp at h
  have hn : n ≤ fuel := by
    by_contra hn
    rw [h5, if_neg hn] at h; simp at h
  rw [h5, if_pos hn] at h
  have huniq : ∀ bc' n', Spec.HrOk pInt pFlt lines bc' n' → bc' = bc ∧ n' = n ∧ pc = ((lines.drop 3).take n).flatten.length := by
    rintro bc' n' ⟨hb, hp, ht, -⟩
    rw [h1] at hb
    rw [h2] at hp
    have hp := Option.some.inj hp
    rw [← hp] at ht
    have := takes_unique ht h3
    subst this
    exact ⟨(Option.some.inj hb).symm, rfl, hp⟩
  rcases mapM_int pInt ((lines.drop 3).take n).flatten with ⟨deg, e4, m4, o4⟩ | ⟨e4, t, ht, ht'⟩
  swap
  · rw [e4] at h
    refine Or.inr ⟨.valueError, (Option.some.inj h).symm, by simp, fun bc' n' ho => ?_⟩
    obtain ⟨rfl, rfl, -⟩ := huniq bc' n' ho
    exact ho.2.2.2.1 t ht ht'
  rw [e4] at h
  simp only [Bind.bind, Except.bind] at h
  have l4 : ((lines.drop 3).take n).flatten.length = deg.length := by
    rw [← List.length_map pInt, m4, List.length_map]
  by_cases hd : pc = deg.length
  swap
  · rw [if_pos hd] at h
    refine Or.inr ⟨.assertionError, (Option.some.inj h).symm, by simp, fun bc' n' ho => ?_⟩
    obtain ⟨rfl, rfl, hp⟩ := huniq bc' n' ho
    exact hd (by rw [hp, l4])
  rw [if_neg (not_not.2 hd)] at h
  rcases hr_body sort hsort pInt pFlt bc ((lines.drop 3).drop n) with ⟨bl, s, g1, g2, g3, g4, g5⟩ | ⟨hno, ⟨e, g1, g2⟩ | ⟨s, g1, g2⟩⟩
  · rw [g1] at h
    simp only [g2] at h
    refine Or.inl ⟨bl, bc, n, (Option.some.inj h).symm, hn, ⟨h1, by rw [h2, hd, l4], by rw [l4, ← hd]; exact h3, o4, g3⟩, g4, g5⟩
  · rw [g1] at h
    refine Or.inr ⟨e, (Option.some.inj h).symm, by tauto, fun bc' n' ho => ?_⟩
    obtain ⟨rfl, rfl, -⟩ := huniq bc' n' ho
    exact hno ho.2.2.2.2
  · rw [g1] at h
    simp only [g2] at h
    refine Or.inr ⟨.indexError, (Option.some.inj h).symm, by simp, fun bc' n' ho => ?_⟩
    obtain ⟨rfl, rfl, -⟩ := huniq bc' n' ho
    exact hno ho.2.2.2.2

/-- C33.  What `load_hr` returns when it returns: the content of the corresponding `tb.dat` body, sorted by length. -/
theorem C33_content (sort : List (Block F) → List (Block F)) (hsort : Spec.IsSort sort) (pInt : Tok → Option ℤ) (pFlt : Tok → Option F)
    (lines : List (List Tok)) (fuel : ℕ) (bl : List (Block F)) (h : loadHr pInt pFlt sort fuel lines = some (.ok bl)) :
    (bl.Pairwise fun a b => Spec.len2 a.pos ≤ Spec.len2 b.pos) ∧ ∃ bc n, Spec.HrOk pInt pFlt lines bc n ∧
      Spec.Content pInt pFlt bc (((lines.drop 3).drop n).flatMap Spec.expand) bl := by
  rcases loadHr_main sort hsort pInt pFlt lines fuel _ h with ⟨bl', bc, n, h1, -, h2, h3, h4⟩ | ⟨e, h1, -⟩
  · rw [Except.ok.inj h1]; exact ⟨h4, bc, n, h2, h3⟩
  · simp at h1

/-- C33.  `load_hr` returns exactly for the well-formed files. -/
theorem C33_accepts (sort : List (Block F) → List (Block F)) (hsort : Spec.IsSort sort) (pInt : Tok → Option ℤ) (pFlt : Tok → Option F)
    (lines : List (List Tok)) :
    (∃ fuel bl, loadHr pInt pFlt sort fuel lines = some (.ok bl)) ↔ ∃ bc n, Spec.HrOk pInt pFlt lines bc n := by
  constructor
  · rintro ⟨fuel, bl, h⟩
    obtain ⟨-, bc, n, h1, -⟩ := C33_content sort hsort pInt pFlt lines fuel bl h
    exact ⟨bc, n, h1⟩
  · rintro ⟨bc, n, ho⟩
    have hnot : ¬ ∀ fuel, loadHr pInt pFlt sort fuel lines = none := by
      rw [C33_hangs]
      rintro ⟨bc', pc, -, hp, hlt⟩
      rw [ho.2.1] at hp
      have := Option.some.inj hp
      have hle : (((lines.drop 3).take n).flatten.length : ℤ) ≤ (lines.drop 3).flatten.length := by
        exact_mod_cast flatten_take_le (lines.drop 3) n
      omega
    simp only [not_forall] at hnot
    obtain ⟨fuel, hf⟩ := hnot
    obtain ⟨r, hr⟩ := Option.ne_none_iff_exists'.1 hf
    rcases loadHr_main sort hsort pInt pFlt lines fuel r hr with ⟨bl, _, _, h1, -⟩ | ⟨e, -, -, hne⟩
    · exact ⟨fuel, bl, by rw [hr, h1]⟩
    · exact absurd ho (hne bc n)

/-- C33.  It raises `ValueError`, `IndexError` or `AssertionError` for the others on which it stops. -/
theorem C33_errors (sort : List (Block F) → List (Block F)) (hsort : Spec.IsSort sort) (pInt : Tok → Option ℤ) (pFlt : Tok → Option F)
    (lines : List (List Tok)) (fuel : ℕ) (e : Err) (h : loadHr pInt pFlt sort fuel lines = some (.error e)) :
    e = .valueError ∨ e = .indexError ∨ e = .assertionError := by
  rcases loadHr_main sort hsort pInt pFlt lines fuel _ h with ⟨bl', bc, n, h1, -⟩ | ⟨e', h1, h2, -⟩
  · simp at h1
  · rw [Except.error.inj h1]; exact h2

/-- C33 (defect).  The values of the degeneracies have no influence: two files that differ only in them give the same
matrices. -/
theorem C33_degeneracy_ignored (sort : List (Block F) → List (Block F)) (pInt : Tok → Option ℤ) (pFlt : Tok → Option F)
    (date lb lp : List Tok) (degs degs' body : List (List Tok)) (hlen : degs.map List.length = degs'.map List.length)
    (hp : ∀ t ∈ degs.flatten, pInt t ≠ none) (hp' : ∀ t ∈ degs'.flatten, pInt t ≠ none) (pc : ℤ) (hpc : Spec.number pInt lp = some pc)
    (ht : Spec.Takes degs pc degs.length) (fuel : ℕ) :
    loadHr pInt pFlt sort fuel (date :: lb :: lp :: (degs ++ body)) = loadHr pInt pFlt sort fuel (date :: lb :: lp :: (degs' ++ body)) := by
  have hl : degs.length = degs'.length := by simpa using congrArg List.length hlen
  have hfl : ∀ m, (degs.take m).flatten.length = (degs'.take m).flatten.length := by
    intro m
    rw [List.length_flatten, List.length_flatten, List.map_take, List.map_take, hlen]
  have gen : ∀ ds : List (List Tok), ds.length = degs.length → (∀ m, (ds.take m).flatten.length = (degs.take m).flatten.length) →
      Spec.Takes (ds ++ body) pc degs.length := by
    intro ds h1 h2
    refine ⟨ht.1, ?_, fun m hm1 hm2 => ?_⟩
    · rw [List.take_append_of_le_length (by omega), h2]; exact ht.2.1
    · rw [List.take_append_of_le_length (by omega), h2]; exact ht.2.2 m hm1 hm2
  have t1 := gen degs rfl (fun _ => rfl)
  have t2 := gen degs' hl.symm (fun m => (hfl m).symm)
  have key : ∀ ds : List (List Tok), ds.length = degs.length → Spec.Takes (ds ++ body) pc degs.length → (∀ t ∈ ds.flatten, pInt t ≠ none) →
      ds.flatten.length = degs.flatten.length →
      loadHr pInt pFlt sort fuel (date :: lb :: lp :: (ds ++ body)) = match Spec.number pInt lb with
        | none => some (.error .valueError)
        | some bc => if degs.length ≤ fuel then some (if pc ≠ degs.flatten.length then .error .assertionError else do
            let s ← readLines (hrLine pInt pFlt bc) ⟨[], none⟩ body
            finish sort s.blocks) else none := by
    intro ds h1 h2 h3 h4
    rcases loadHr_cases sort pInt pFlt (date :: lb :: lp :: (ds ++ body)) with ⟨g1, g2⟩ | ⟨bc, pc', g1, g2, ⟨g3, g4⟩ | ⟨n, g3, g4, g5⟩⟩
    · have e1 : Spec.line (date :: lb :: lp :: (ds ++ body)) 1 = lb := rfl
      have e2 : Spec.line (date :: lb :: lp :: (ds ++ body)) 2 = lp := rfl
      rw [e1, e2, hpc] at g1
      rw [g2]
      rcases g1 with g1 | g1
      · rw [g1]
      · simp at g1
    · have e2 : Spec.line (date :: lb :: lp :: (ds ++ body)) 2 = lp := rfl
      rw [e2, hpc] at g2
      obtain rfl := Option.some.inj g2
      have e3 : (date :: lb :: lp :: (ds ++ body)).drop 3 = ds ++ body := rfl
      rw [e3] at g3
      have := h2.2.1
      have hle : (((ds ++ body).take degs.length).flatten.length : ℤ) ≤ (ds ++ body).flatten.length := by
        exact_mod_cast flatten_take_le (ds ++ body) degs.length
      omega
    · have e1 : Spec.line (date :: lb :: lp :: (ds ++ body)) 1 = lb := rfl
      have e2 : Spec.line (date :: lb :: lp :: (ds ++ body)) 2 = lp := rfl
      have e3 : (date :: lb :: lp :: (ds ++ body)).drop 3 = ds ++ body := rfl
      rw [e2, hpc] at g2
      obtain rfl := Option.some.inj g2
      rw [e3] at g3 g5
      rw [e1] at g1
      obtain rfl := takes_unique g3 h2
      rw [g5, g1]
      simp only
      by_cases hf : degs.length ≤ fuel
      swap
      · rw [if_neg hf, if_neg hf]
      rw [if_pos hf, if_pos hf]
      have htk : (ds ++ body).take degs.length = ds := by rw [← h1]; exact List.take_left
      have hdr : (ds ++ body).drop degs.length = body := by rw [← h1]; exact List.drop_left
      rw [htk, hdr]
      rcases mapM_int pInt ds.flatten with ⟨deg, e4, m4, -⟩ | ⟨-, t, htt, htt'⟩
      · rw [e4]
        have l4 : ds.flatten.length = deg.length := by rw [← List.length_map pInt, m4, List.length_map]
        simp only [Bind.bind, Except.bind]
        rw [← h4, l4]
      · exact absurd htt' (h3 t htt)
  have hfull : degs'.flatten.length = degs.flatten.length := by
    have := hfl degs.length
    rw [List.take_length, hl, List.take_length] at this
    exact this.symm
  rw [key degs rfl t1 hp rfl, key degs' hl.symm t2 hp' hfull]

/-! ## Examples -/

/-- Sorting by length as an insertion sort. -/
def exSort (l : List (Block ℤ)) : List (Block ℤ) := l.insertionSort fun a b => Spec.len2 a.pos ≤ Spec.len2 b.pos

theorem exSort_isSort : Spec.IsSort exSort := by
  intro l
  have : Std.Total (fun a b : Block ℤ => Spec.len2 a.pos ≤ Spec.len2 b.pos) := ⟨fun a b => le_total _ _⟩
  have : IsTrans (Block ℤ) (fun a b : Block ℤ => Spec.len2 a.pos ≤ Spec.len2 b.pos) := ⟨fun a b c h1 h2 => le_trans h1 h2⟩
  exact ⟨List.perm_insertionSort _ _, List.pairwise_insertionSort _ _⟩

/-- Tokens are integers, except `1000`, which is not a number. -/
def exInt (t : ℤ) : Option ℤ := if t = 1000 then none else some t

/-- A `tb.dat` with the positions `(1,0,0)`, `(0,0,0)`, `(-1,0,0)` and `(1,0,0)` again. -/
def exTb : List (List ℤ) :=
  [[7], [1, 0, 0], [0, 1, 0], [0, 0, 1], [2], [3], [1, 1], [1], [],
   [1, 0, 0], [1, 1, 3, 4], [2, 1, 5, 6], [0, 1, 8, 9], [], [0, 0, 0], [1, 1, 7, 0], [],
   [-1, 0, 0], [1, 1, 3, -4], [1000, 1000, 1000, 1000], [], [1, 0, 0], [1, 1, 2, 2], [1, 2, 1, 2, 3, 4, 5, 6]]

/-- `C32_content`, `C32_pairs`: the shorter position comes first, `(-1,0,0)` is left out with its unreadable line, later
entries win, row 0 means the last row. -/
example : okAnd (loadTb exInt exInt exSort exTb) (fun r => r.2.1 == [1, 1, 1] && r.1.map Block.pos == [(0, 0, 0), (1, 0, 0)] &&
    (r.1.map fun b => (b.H 0 0, b.H 1 0, b.r 0 1)) ==
      [((7, 0), (0, 0), ((0, 0), (0, 0), (0, 0))), ((2, 2), (8, 9), ((1, 2), (3, 4), (5, 6)))]) = true := by decide +kernel

/-- `C32_accepts` (left to right gives a well-formed file). -/
example : Spec.TbOk exInt exInt exTb := by
  refine (C32_accepts exSort exSort_isSort exInt exInt exTb).1 ?_
  have : okAnd (loadTb exInt exInt exSort exTb) (fun _ => true) = true := by decide +kernel
  obtain ⟨r, hr, -⟩ := okAnd_iff.1 this
  exact ⟨r, hr⟩

def errorOf {α : Type} (x : Except Err α) : Option Err :=
  match x with
  | .ok _ => none
  | .error e => some e

/-- `C32_errors`: each of the three classes occurs (unreadable number, row 3 of 2, wrong number of degeneracies). -/
example : errorOf (loadTb exInt exInt exSort ((exTb.take 9) ++ [[1, 0, 1000]])) = some .valueError ∧
    errorOf (loadTb exInt exInt exSort ((exTb.take 9) ++ [[1, 0, 0], [3, 1, 0, 0]])) = some .indexError ∧
    errorOf (loadTb exInt exInt exSort ((exTb.take 7) ++ [[]])) = some .assertionError := by decide +kernel

/-- `C32_malformed`: a line of five tokens after a position. -/
example : loadTb exInt exInt exSort ((exTb.take 9) ++ [[1, 0, 0], [1, 1, 3, 4], [1, 2, 3, 4, 5], [1000]]) = .error .valueError := by
  have hT : Spec.TbOk exInt exInt ((exTb.take 9) ++ [[1, 0, 0], [1, 1, 3, 4]]) := by
    refine (C32_accepts exSort exSort_isSort exInt exInt _).1 ?_
    have : okAnd (loadTb exInt exInt exSort ((exTb.take 9) ++ [[1, 0, 0], [1, 1, 3, 4]])) (fun _ => true) = true := by decide +kernel
    obtain ⟨r, hr, -⟩ := okAnd_iff.1 this
    exact ⟨r, hr⟩
  obtain ⟨h1, h2, h3, h4, h5, bc, h6, h7⟩ := hT
  refine C32_malformed exSort exInt exInt _ [[1, 0, 0], [1, 1, 3, 4]] [[1000]] [1, 2, 3, 4, 5] bc ⟨?_, rfl, rfl, h4, h5, h6⟩ rfl h7.1 (by simp)
  intro n hn1 hn3
  have : n = 1 ∨ n = 2 ∨ n = 3 := by omega
  rcases this with rfl | rfl | rfl
  · exact h1 1 (by omega) (by omega)
  · exact h1 2 (by omega) (by omega)
  · exact h1 3 (by omega) (by omega)

/-- A `hr.dat` with three degeneracies on two lines. -/
def exHr : List (List ℤ) :=
  [[7], [2], [3], [1, 2], [1], [1, 0, 0, 1, 1, 3, 4], [0, 0, 0, 1, 1, 7, 0], [-1, 0, 0, 1, 1, 1000, 1000], [1, 0, 0, 1, 1, 2, 2]]

/-- `C33_content`, `C33_accepts`, `C33_deterministic`. -/
example : (loadHr exInt exInt exSort 2 exHr).any (fun r => okAnd r fun bl => (bl.map fun b => (b.pos, b.H 0 0)) ==
    [((0, 0, 0), (7, 0)), ((1, 0, 0), (2, 2))]) = true := by decide +kernel

/-- `C33_errors`: a line of six tokens. -/
example : (loadHr exInt exInt exSort 2 (exHr ++ [[1, 0, 0, 1, 1, 3]])).map errorOf = some (some .valueError) := by decide +kernel

/-- `C33_hangs`: 5 degeneracies announced, 3 given. -/
example : ∀ fuel, loadHr exInt exInt exSort fuel [[7], [2], [5], [1, 2], [1]] = none :=
  (C33_hangs exSort exInt exInt _).2 ⟨2, 5, rfl, rfl, by decide⟩

/-- `C33_degeneracy_ignored`. -/
example (fuel : ℕ) : loadHr exInt exInt exSort fuel exHr =
    loadHr exInt exInt exSort fuel ([[7], [2], [3]] ++ [[4, 6], [8]] ++ exHr.drop 5) :=
  C33_degeneracy_ignored exSort exInt exInt [7] [2] [3] [[1, 2], [1]] [[4, 6], [8]] (exHr.drop 5) rfl (by decide) (by decide) 3 rfl
    ⟨by decide, by decide, fun m h1 h2 => by
      have : m = 1 := by simp at h2; omega
      subst this; decide⟩ fuel

end TB.Fmt
