import Mathlib.Tactic.Linarith
import Mathlib.Tactic.FieldSimp
import Mathlib.Tactic.Ring
import Mathlib.Tactic.NormNum
import Mathlib.Data.List.GetD
import Mathlib.Data.List.Sort
import Mathlib.Data.List.Perm.Subperm
import Verif.Model.KPath

/-!
# C37, C38: paths in k space
-/

namespace TB

/-- The position an argument denotes. -/
def Spec.pointOf (D : Points) : PArg → Option Pt
  | .str s => (D s).map Prod.fst
  | .arr p => some p
  | .num x => some [x]

/-- Paths that can be built with successful calls, with the waypoints requested so far. -/
inductive Spec.Reach (F : Fmt) (D : Points) : KPath → List Pt → Prop
  | start {s : KPath} {p : PArg} {q : Pt} {name : Option String} (h : startPath F D p name = .ok s)
      (hq : Spec.pointOf D p = some q) : Spec.Reach F D s [q]
  | step {s s' : KPath} {W : List Pt} {p : PArg} {q : Pt} {name : Option String} {N : ℤ} (hs : Spec.Reach F D s W)
      (h : s.to F D p name N = (s', .ok ())) (hq : Spec.pointOf D p = some q) : Spec.Reach F D s' (W ++ [q])

theorem resolve_spec (F : Fmt) (D : Points) (names : List String) (p : PArg) (name : Option String) :
    (∀ q, (resolve F D names p name).2 = .ok q → Spec.pointOf D p = some q ∧
      ∃ nm, (resolve F D names p name).1 = names ++ [nm]) ∧
    (∀ q, Spec.pointOf D p = some q → (name = none → ¬ ∃ x, p = .num x) → (resolve F D names p name).2 = .ok q) ∧
    ((resolve F D names p name).1 = names ∨ ∃ nm, (resolve F D names p name).1 = names ++ [nm]) := by
  cases p with
  | str s =>
    cases name with
    | none => cases h : D s <;> simp [resolve, h, Spec.pointOf]
    | some nm => cases h : D s <;> simp [resolve, h, Spec.pointOf]
  | arr p => simp [resolve, Spec.pointOf]
  | num x => cases name <;> simp [resolve, Spec.pointOf]

/-- C37.  A successful `to(point, name, N)` has `N ≥ 1`, adds exactly `N` points after the existing ones, equally spaced on
the straight line from the last point to the requested one, which is reached by the last of them; it records
the index of that point and one name. -/
theorem C37_to (F : Fmt) (D : Points) (s s' : KPath) (p : PArg) (name : Option String) (N : ℤ)
    (h : s.to F D p name N = (s', .ok ())) :
    ∃ q new nm, Spec.pointOf D p = some q ∧ q.length = (s.path.headD []).length ∧ 1 ≤ N ∧
      s'.path = s.path ++ new ∧ (new.length : ℤ) = N ∧ s'.indices = s.indices ++ [s'.path.length - 1] ∧
      s'.names = s.names ++ [nm] ∧
      ∀ last, s.path.getLast? = some last → last.length = q.length →
        (∀ i (hi : i < new.length), new[i].length = q.length ∧
          ∀ c (h1 : c < new[i].length) (h2 : c < last.length) (h3 : c < q.length),
            new[i][c] = last[c] + ((i : ℝ) + 1) / N * (q[c] - last[c])) ∧
        new.getLast? = some q := by
  rw [KPath.to] at h
  obtain ⟨h1, -, -⟩ := resolve_spec F D s.names p name
  cases hr : (resolve F D s.names p name).2 with
  | error e => rw [hr] at h; simp at h
  | ok q =>
    obtain ⟨hq, nm, hnm⟩ := h1 q hr
    rw [hr] at h
    simp only at h
    by_cases c1 : q.length ≠ (s.path.headD []).length
    · rw [if_pos c1] at h; simp at h
    rw [if_neg c1] at h
    by_cases c2 : N < 0
    · rw [if_pos c2] at h; simp at h
    rw [if_neg c2] at h
    by_cases c3 : N = 0
    · rw [if_pos c3] at h; simp at h
    rw [if_neg c3] at h
    simp only [Prod.mk.injEq, and_true] at h
    subst h
    have hN : 1 ≤ N := by omega
    have hNN : ((N.toNat : ℕ) : ℤ) = N := Int.toNat_of_nonneg (by omega)
    have hNr : ((N.toNat : ℕ) : ℝ) = (N : ℝ) := by exact_mod_cast hNN
    have hN0 : (N : ℝ) ≠ 0 := by exact_mod_cast c3
    refine ⟨q, _, nm, hq, not_not.1 c1, hN, rfl, by simp [segment, hNN], rfl, hnm, ?_⟩
    intro last hlast hlen
    have hl : s.path.getLastD [] = last := by rw [List.getLastD_eq_getLast?, hlast]; rfl
    have hpt : ∀ i : ℕ, last.add (Pt.smul ((i : ℝ) / N + 1 / N) (q.sub last)) =
        List.zipWith (fun x y => x + ((i : ℝ) + 1) / N * (y - x)) last q := by
      intro i
      refine List.ext_getElem (by simp [Pt.add, Pt.smul, Pt.sub, hlen]) fun c h1 h2 => ?_
      simp only [Pt.add, Pt.smul, Pt.sub, List.getElem_zipWith, List.getElem_map]
      ring
    constructor
    · intro i hi
      have hi' : (segment (s.path.getLastD []) q N.toNat)[i] =
          List.zipWith (fun x y => x + ((i : ℝ) + 1) / N * (y - x)) last q := by
        simp only [segment, List.getElem_map, List.getElem_range, hl, hNr]
        exact hpt i
      refine ⟨by rw [hi']; simp [hlen], fun c h1 h2 h3 => ?_⟩
      simp only [hi', List.getElem_zipWith]
    · have hpos : N.toNat = (N.toNat - 1) + 1 := by omega
      rw [segment, hpos, List.range_succ, List.map_append, List.map_singleton, List.getLast?_append]
      simp only [List.getLast?_singleton, Option.some_or, Option.some.injEq, hl]
      rw [← hpos, hNr, hpt]
      have : (((N.toNat - 1 : ℕ) : ℝ) + 1) / N = 1 := by
        rw [← hNr, div_eq_one_iff_eq (by rw [hNr]; exact hN0)]
        exact_mod_cast hpos.symm
      simp only [this]
      refine List.ext_getElem (by simp [hlen]) fun c h1 h2 => ?_
      simp

/-- The label of a waypoint: the given name, else the display name of a named point, else the text for the coordinates. -/
def Spec.label (text : Pt → String) (D : Points) (p : PArg) : Option String → Option String
  | some nm => some nm
  | none => match p with
    | .str s => (D s).map Prod.snd
    | .arr q => some (text q)
    | .num x => some (text [x])

/-- C37.  The name recorded by a successful call is the given one, else the one of the named point, else the text of the
coordinates. -/
theorem C37_label (F : Fmt) (D : Points) (s s' : KPath) (p : PArg) (name : Option String) (N : ℤ)
    (h : s.to F D p name N = (s', .ok ())) :
    ∃ nm, Spec.label F.fmt D p name = some nm ∧ s'.names = s.names ++ [nm] := by
  have key : ∀ q, (resolve F D s.names p name).2 = .ok q →
      ∃ nm, Spec.label F.fmt D p name = some nm ∧ (resolve F D s.names p name).1 = s.names ++ [nm] := by
    intro q
    cases p with
    | str x => cases name <;> cases hd : D x <;> simp [resolve, hd, Spec.label]
    | arr q => cases name <;> simp [resolve, Spec.label]
    | num x => cases name <;> simp [resolve, Spec.label]
  rw [KPath.to] at h
  cases hr : (resolve F D s.names p name).2 with
  | error e => rw [hr] at h; simp at h
  | ok q =>
    obtain ⟨nm, h1, h2⟩ := key q hr
    rw [hr] at h
    simp only at h
    by_cases c1 : q.length ≠ (s.path.headD []).length
    · rw [if_pos c1] at h; simp at h
    rw [if_neg c1] at h
    by_cases c2 : N < 0
    · rw [if_pos c2] at h; simp at h
    rw [if_neg c2] at h
    by_cases c3 : N = 0
    · rw [if_pos c3] at h; simp at h
    rw [if_neg c3] at h
    simp only [Prod.mk.injEq, and_true] at h
    subst h
    exact ⟨nm, h1, h2⟩

/-- C37.  A path started from one point consists of that point, with index zero and its label; it exists if and only if
the argument denotes a point. -/
theorem C37_start (F : Fmt) (D : Points) (p : PArg) (name : Option String) :
    (∀ s, KPath.new F D (.one p) name = .ok s → ∃ q nm, Spec.pointOf D p = some q ∧ Spec.label F.fmt0 D p name = some nm ∧
      s.path = [q] ∧ s.indices = [0] ∧ s.names = [nm]) ∧
    ((∃ s, KPath.new F D (.one p) name = .ok s) ↔ ∃ q, Spec.pointOf D p = some q) := by
  cases p with
  | str x =>
    cases hd : D x with
    | none => simp [KPath.new, startPath, hd, Spec.pointOf]
    | some q =>
      constructor
      · intro s h
        simp only [KPath.new, startPath, hd, Except.ok.injEq] at h
        subst h
        cases name <;> simp [Spec.pointOf, Spec.label, hd]
      · simp [KPath.new, startPath, hd, Spec.pointOf]
  | arr q =>
    constructor
    · intro s h
      simp only [KPath.new, startPath, Except.ok.injEq] at h
      subst h
      cases name <;> simp [Spec.pointOf, Spec.label]
    · simp [KPath.new, startPath, Spec.pointOf]
  | num x =>
    constructor
    · intro s h
      simp only [KPath.new, startPath, Except.ok.injEq] at h
      subst h
      cases name <;> simp [Spec.pointOf, Spec.label]
    · simp [KPath.new, startPath, Spec.pointOf]

/-- C37.  `to` succeeds exactly if the argument denotes a point of the dimension of the path, `N` is positive, and the
argument is not a plain number without a name.  A failing call leaves the points and the indices alone. -/
theorem C37_to_succeeds_iff (F : Fmt) (D : Points) (s : KPath) (p : PArg) (name : Option String) (N : ℤ) :
    ((∃ s', s.to F D p name N = (s', .ok ())) ↔
      (∃ q, Spec.pointOf D p = some q ∧ q.length = (s.path.headD []).length) ∧ 0 < N ∧
        (name = none → ¬ ∃ x, p = .num x)) ∧
    ∀ s' e, s.to F D p name N = (s', .error e) → s'.path = s.path ∧ s'.indices = s.indices := by
  obtain ⟨h1, h2, -⟩ := resolve_spec F D s.names p name
  constructor
  · constructor
    · rintro ⟨s', h⟩
      obtain ⟨q, new, nm, hq, hl, hN, -⟩ := C37_to F D s s' p name N h
      refine ⟨⟨q, hq, hl⟩, by omega, ?_⟩
      rintro rfl ⟨x, rfl⟩
      simp [KPath.to, resolve] at h
    · rintro ⟨⟨q, hq, hl⟩, hN, hx⟩
      have hr := h2 q hq hx
      rw [KPath.to]
      simp only [hr]
      rw [if_neg (not_not.2 hl), if_neg (by omega), if_neg (by omega)]
      exact ⟨_, rfl⟩
  · intro s' e h
    rw [KPath.to] at h
    cases hr : (resolve F D s.names p name).2 with
    | error e => rw [hr] at h; simp only [Prod.mk.injEq] at h; rw [← h.1]; exact ⟨rfl, rfl⟩
    | ok q =>
      rw [hr] at h
      simp only at h
      by_cases c1 : q.length ≠ (s.path.headD []).length
      · rw [if_pos c1] at h; simp only [Prod.mk.injEq] at h; rw [← h.1]; exact ⟨rfl, rfl⟩
      rw [if_neg c1] at h
      by_cases c2 : N < 0
      · rw [if_pos c2] at h; simp only [Prod.mk.injEq] at h; rw [← h.1]; exact ⟨rfl, rfl⟩
      rw [if_neg c2] at h
      by_cases c3 : N = 0
      · rw [if_pos c3] at h; simp only [Prod.mk.injEq] at h; rw [← h.1]; exact ⟨rfl, rfl⟩
      rw [if_neg c3] at h
      simp at h

/-- The bookkeeping invariant: one name and one index per waypoint, indices strictly increasing from zero to the last
point, the point at each index is the waypoint, all points have the same dimension. -/
structure Spec.PathInv (s : KPath) (W : List Pt) : Prop where
  names : s.names.length = W.length
  indices : s.indices.length = W.length
  increasing : s.indices.Pairwise (· < ·)
  waypoint : ∀ j (h1 : j < s.indices.length) (h2 : j < W.length), s.path[s.indices[j]]? = some W[j]
  first : s.indices.head? = some 0
  last : s.indices.getLast? = some (s.path.length - 1)
  nonempty : s.path ≠ []
  dim : ∀ p ∈ s.path, p.length = (s.path.headD []).length

theorem startPath_spec {F : Fmt} {D : Points} {p : PArg} {name : Option String} {s : KPath}
    (h : startPath F D p name = .ok s) : ∃ q nm, Spec.pointOf D p = some q ∧ s = ⟨[q], [0], [nm]⟩ := by
  cases p with
  | str x =>
    cases hd : D x with
    | none => simp [startPath, hd] at h
    | some q =>
      rw [startPath, hd] at h
      simp only [Except.ok.injEq] at h
      exact ⟨q.1, _, by simp [Spec.pointOf, hd], h.symm⟩
  | arr q => simp only [startPath, Except.ok.injEq] at h; exact ⟨q, _, rfl, h.symm⟩
  | num x => simp only [startPath, Except.ok.injEq] at h; exact ⟨[x], _, rfl, h.symm⟩

/-- C37.  After any sequence of successful calls the invariant holds. -/
theorem C37_invariant (F : Fmt) (D : Points) (s : KPath) (W : List Pt) (h : Spec.Reach F D s W) : Spec.PathInv s W := by
  induction h with
  | start h hq =>
    obtain ⟨q', nm, hq', rfl⟩ := startPath_spec h
    rw [hq] at hq'
    cases hq'
    exact ⟨rfl, rfl, by simp, by intro j h1 h2; simp at h1; subst h1; rfl, rfl, rfl, by simp, by simp⟩
  | step hs h hq ih =>
    rename_i s s' W p q name N
    obtain ⟨q', new, nm, hq', hdim, hN, hp, hl, hi, hn, hlast⟩ := C37_to F D s s' p name N h
    rw [hq] at hq'
    cases hq'
    obtain ⟨last, hlast0⟩ : ∃ l, s.path.getLast? = some l := by
      cases hg : s.path.getLast? with
      | none => rw [List.getLast?_eq_none_iff] at hg; exact absurd hg ih.nonempty
      | some l => exact ⟨l, rfl⟩
    have hlmem : last ∈ s.path := List.mem_of_getLast? hlast0
    have hlen : last.length = q.length := by rw [ih.dim _ hlmem, hdim]
    obtain ⟨hpts, hfin⟩ := hlast last hlast0 hlen
    have hnewne : new ≠ [] := by rintro rfl; simp at hl; omega
    have hnl : 0 < new.length := List.length_pos_iff.2 hnewne
    have hpl : 0 < s.path.length := List.length_pos_iff.2 ih.nonempty
    have hpl' : s'.path.length = s.path.length + new.length := by rw [hp]; simp
    have hlt : ∀ a ∈ s.indices, a < s.path.length := by
      intro a ha
      obtain ⟨j, hj, rfl⟩ := List.getElem_of_mem ha
      have := ih.waypoint j hj (by rw [← ih.indices]; exact hj)
      exact (List.getElem?_eq_some_iff.1 this).1
    refine ⟨?_, ?_, ?_, ?_, ?_, ?_, ?_, ?_⟩
    · rw [hn]; simp [ih.names]
    · rw [hi]; simp [ih.indices]
    · rw [hi, List.pairwise_append]
      refine ⟨ih.increasing, by simp, ?_⟩
      intro a ha b hb
      simp only [List.mem_singleton] at hb
      subst hb
      have := hlt a ha
      omega
    · intro j h1 h2
      simp only [hi]
      by_cases hj : j < s.indices.length
      · rw [List.getElem_append_left hj]
        have hjW : j < W.length := by rw [← ih.indices]; exact hj
        rw [List.getElem_append_left hjW, hp, List.getElem?_append_left (hlt _ (List.getElem_mem hj))]
        exact ih.waypoint j hj hjW
      · have hj' : j = s.indices.length := by rw [hi] at h1; simp at h1; omega
        subst hj'
        rw [List.getElem_append_right le_rfl]
        have hjW : W.length ≤ s.indices.length := ih.indices.ge
        rw [List.getElem_append_right hjW]
        simp only [List.getElem_singleton]
        rw [hpl', hp, List.getElem?_append_right (by omega), ← hfin, List.getLast?_eq_getElem?]
        congr 1
        omega
    · rw [hi, List.head?_append, ih.first]; rfl
    · rw [hi, List.getLast?_append]; rfl
    · rw [hp]; simp [ih.nonempty]
    · intro x hx
      have hh : s'.path.headD [] = s.path.headD [] := by
        rw [hp]; cases hc : s.path with
        | nil => exact absurd hc ih.nonempty
        | cons a l => rfl
      rw [hh]
      rw [hp] at hx
      rcases List.mem_append.1 hx with hx | hx
      · exact ih.dim x hx
      · obtain ⟨i, hi, rfl⟩ := List.getElem_of_mem hx
        rw [(hpts i hi).1, hdim]

theorem addAll_reach (F : Fmt) (D : Points) (ps : List PArg) (s s' : KPath) (W : List Pt) (hs : Spec.Reach F D s W)
    (h : addAll F D s ps = .ok s') : ∃ V, ps.map (Spec.pointOf D) = V.map some ∧ Spec.Reach F D s' (W ++ V) ∧
      s'.path.length = s.path.length + 32 * V.length := by
  induction ps generalizing s W with
  | nil =>
    simp only [addAll, Except.ok.injEq] at h
    subst h
    exact ⟨[], rfl, by simpa using hs, by simp⟩
  | cons p ps ih =>
    rw [addAll] at h
    obtain ⟨⟨s1, r⟩, hst⟩ : ∃ x, s.to F D p none 32 = x := ⟨_, rfl⟩
    rw [hst] at h
    cases r with
    | error e => simp at h
    | ok u =>
      simp only at h
      obtain ⟨q, new, -, hq, -, -, hp, hl, -⟩ := C37_to F D s s1 p none 32 hst
      obtain ⟨V, hV, hR, hL⟩ := ih s1 (W ++ [q]) (Spec.Reach.step hs hst hq) h
      refine ⟨q :: V, by simp [hV, hq], by simpa using hR, ?_⟩
      rw [hL, hp]
      simp
      omega

/-- C37.  A path built from a list of points has these points as its waypoints. -/
theorem C37_list_constructor (F : Fmt) (D : Points) (ps : List PArg) (name : Option String) (s : KPath)
    (h : KPath.new F D (.many ps) name = .ok s) :
    ∃ W, ps.map (Spec.pointOf D) = W.map some ∧ Spec.Reach F D s W ∧ Spec.PathInv s W ∧
      s.path.length = 32 * (W.length - 1) + 1 := by
  cases ps with
  | nil => simp [KPath.new] at h
  | cons p ps =>
    rw [KPath.new] at h
    cases h0 : startPath F D p name with
    | error e => rw [h0] at h; simp at h
    | ok s0 =>
      rw [h0] at h
      simp only at h
      obtain ⟨q, nm, hq, hs0⟩ := startPath_spec h0
      obtain ⟨V, hV, hR, hL⟩ := addAll_reach F D ps s0 s [q] (Spec.Reach.start h0 hq) h
      exact ⟨q :: V, by simp [hV, hq], hR, C37_invariant F D s _ hR, by rw [hL, hs0]; simp; omega⟩

/-- C37.  The documented way to start from an explicit point, `KPath((x, y, ...))`, raises `TypeError`: the tuple is taken
for a list of points. -/
theorem C37_tuple_start_raises (F : Fmt) (D : Points) (x y : ℝ) (rest : List ℝ) (name : Option String) :
    KPath.new F D (.many (((x :: y :: rest)).map PArg.num)) name = .error .typeError := by
  simp [KPath.new, startPath, addAll, KPath.to, resolve]

/-- C37.  An empty list of points raises `IndexError`. -/
theorem C37_empty_list (F : Fmt) (D : Points) (name : Option String) : KPath.new F D (.many []) name = .error .indexError := rfl

/-- C37.  A failing call can leave one more name than indices: the name is recorded before the point is checked. -/
theorem C37_failed_call_adds_name (F : Fmt) (D : Points) (s : KPath) (W : List Pt) (hs : Spec.Reach F D s W)
    (q : Pt) (nm : String) (N : ℤ) (hbad : q.length ≠ (s.path.headD []).length ∨ N ≤ 0) :
    ∃ s' e, s.to F D (.arr q) (some nm) N = (s', .error e) ∧ s'.names.length = s'.indices.length + 1 := by
  have inv := C37_invariant F D s W hs
  have hn : (s.names ++ [nm]).length = s.indices.length + 1 := by simp [inv.names, inv.indices]
  rw [KPath.to]
  simp only [resolve, Option.getD_some]
  by_cases c1 : q.length ≠ (s.path.headD []).length
  · rw [if_pos c1]; exact ⟨_, _, rfl, hn⟩
  rw [if_neg c1]
  by_cases c2 : N < 0
  · rw [if_pos c2]; exact ⟨_, _, rfl, hn⟩
  rw [if_neg c2]
  have c3 : N = 0 := by rcases hbad with h | h <;> [exact absurd h c1; omega]
  rw [if_pos c3]
  exact ⟨_, _, rfl, hn⟩

/-- Distance travelled along the path up to point `i`. -/
noncomputable def Spec.travelled (path : List Pt) (i : ℕ) : ℝ :=
  ∑ k ∈ Finset.range i, ((path.getD (k + 1) []).sub (path.getD k [])).norm

theorem Pt.norm_nonneg (p : Pt) : 0 ≤ p.norm := Real.sqrt_nonneg _

theorem kpath_x_eq (s : KPath) : s.x = (List.range (s.path.length - 1 + 1)).map (Spec.travelled s.path) := by
  rw [KPath.x]
  generalize s.path.length - 1 = n
  induction n with
  | zero => simp [Spec.travelled]
  | succ n ih =>
    rw [List.range_succ, List.foldl_append, ih]
    simp only [List.foldl_cons, List.foldl_nil]
    rw [List.range_succ (n := n + 1), List.map_append, List.map_singleton]
    congr 2
    rw [List.range_succ, List.map_append, List.map_singleton]
    simp [Spec.travelled, Finset.sum_range_succ]

/-- C38.  `x()` has one entry per point, starts at zero, and entry `i` is the length of the path up to point `i`; it never
decreases. -/
theorem C38_x (s : KPath) (hs : s.path ≠ []) :
    s.x.length = s.path.length ∧ s.x[0]? = some 0 ∧
    (∀ i, i < s.path.length → s.x[i]? = some (Spec.travelled s.path i)) ∧ s.x.Pairwise (· ≤ ·) := by
  have hl : 0 < s.path.length := List.length_pos_iff.2 hs
  have h1 : s.path.length - 1 + 1 = s.path.length := by omega
  have hx := kpath_x_eq s
  rw [h1] at hx
  refine ⟨by rw [hx]; simp, ?_, ?_, ?_⟩
  · rw [hx]; simp [hl, Spec.travelled]
  · intro i hi; rw [hx]; simp [hi]
  · rw [hx, List.pairwise_map]
    refine List.Pairwise.imp ?_ List.pairwise_lt_range
    intro a b hab
    rw [Spec.travelled, Spec.travelled]
    exact Finset.sum_le_sum_of_subset_of_nonneg (Finset.range_subset_range.2 hab.le)
      fun _ _ _ => Pt.norm_nonneg _

theorem kpath_symX_eq (s : KPath) :
    s.symX = ((List.range (s.path.length - 1 + 1)).filter (· ∈ s.indices)).map (Spec.travelled s.path) := by
  rw [KPath.symX]
  have key : ∀ n, (List.range n).foldl (fun (acc : ℝ × List ℝ) i =>
      let l := acc.1 + ((s.path.getD (i + 1) []).sub (s.path.getD i [])).norm
      (l, if i + 1 ∈ s.indices then acc.2 ++ [l] else acc.2)) (0, if 0 ∈ s.indices then [0] else []) =
      (Spec.travelled s.path n, ((List.range (n + 1)).filter (· ∈ s.indices)).map (Spec.travelled s.path)) := by
    intro n
    induction n with
    | zero =>
      by_cases h : 0 ∈ s.indices <;> simp [Spec.travelled, h]
    | succ n ih =>
      rw [List.range_succ, List.foldl_append, ih]
      simp only [List.foldl_cons, List.foldl_nil]
      rw [List.range_succ (n := n + 1), List.filter_append, List.map_append]
      have ht : Spec.travelled s.path n + ((s.path.getD (n + 1) []).sub (s.path.getD n [])).norm =
          Spec.travelled s.path (n + 1) := by rw [Spec.travelled, Spec.travelled, Finset.sum_range_succ]
      rw [ht]
      by_cases h : n + 1 ∈ s.indices <;> simp [h]
  rw [key]

theorem filter_range_eq (l : List ℕ) (n : ℕ) (hl : l.Pairwise (· < ·)) (hn : ∀ a ∈ l, a < n) :
    (List.range n).filter (· ∈ l) = l := by
  refine List.Perm.eq_of_pairwise (le := (· < ·)) (fun a b _ _ h1 h2 => absurd h1 (by omega))
    (List.Pairwise.filter _ List.pairwise_lt_range) hl ?_
  refine (List.perm_ext_iff_of_nodup (List.Nodup.filter _ List.nodup_range) (hl.imp fun h => h.ne)).2 ?_
  intro a
  simp only [List.mem_filter, List.mem_range, decide_eq_true_eq]
  exact ⟨fun h => h.2, fun h => ⟨hn a h, h⟩⟩

theorem norm_smul (t : ℝ) (v : Pt) : (Pt.smul t v).norm = |t| * v.norm := by
  rw [Pt.norm, Pt.norm, ← Real.sqrt_sq_eq_abs, ← Real.sqrt_mul (sq_nonneg t), Pt.smul, List.map_map]
  congr 1
  rw [← List.sum_map_mul_left]
  congr 1
  refine List.map_congr_left fun x _ => ?_
  simp only [Function.comp]
  ring

/-- Distance between two points. -/
noncomputable def Spec.dist (a b : Pt) : ℝ := Real.sqrt ((List.zipWith (fun x y => (x - y) ^ 2) a b).sum)

theorem norm_sub (a b : Pt) : (a.sub b).norm = Spec.dist a b := by
  rw [Pt.norm, Pt.sub, Spec.dist, List.map_zipWith]

/-- Along the segment added by `to` the distance grows linearly. -/
theorem travelled_step (F : Fmt) (D : Points) (s s' : KPath) (p : PArg) (name : Option String) (N : ℤ) (q last : Pt)
    (h : s.to F D p name N = (s', .ok ())) (hq : Spec.pointOf D p = some q) (hlast : s.path.getLast? = some last)
    (hlen : last.length = q.length) (i : ℕ) (hi : (i : ℤ) ≤ N) :
    Spec.travelled s'.path (s.path.length - 1 + i) =
      Spec.travelled s.path (s.path.length - 1) + (i : ℝ) / N * Spec.dist q last := by
  obtain ⟨q', new, nm, hq', hdim, hN, hp, hl, hidx, hn, hpt⟩ := C37_to F D s s' p name N h
  rw [hq] at hq'
  cases hq'
  obtain ⟨hpts, -⟩ := hpt last hlast hlen
  have hne : s.path ≠ [] := by rintro h0; rw [h0] at hlast; simp at hlast
  have hpl : 0 < s.path.length := List.length_pos_iff.2 hne
  have hNr : (0 : ℝ) < N := by exact_mod_cast hN
  -- points of the segment
  have hseg : ∀ i : ℕ, (i : ℤ) ≤ N → s'.path.getD (s.path.length - 1 + i) [] =
      List.zipWith (fun x y => x + (i : ℝ) / N * (y - x)) last q := by
    intro i hi
    cases i with
    | zero =>
      rw [hp, List.getD_append _ _ _ _ (by omega), Nat.add_zero]
      have : s.path.getD (s.path.length - 1) [] = last := by
        rw [List.getD_eq_getElem?_getD, ← List.getLast?_eq_getElem?, hlast]; rfl
      rw [this]
      exact List.ext_getElem (by simp [hlen]) fun c h1 h2 => by simp
    | succ i =>
      rw [hp, List.getD_append_right _ _ _ _ (by omega)]
      have hi' : i < new.length := by omega
      rw [show s.path.length - 1 + (i + 1) - s.path.length = i by omega, List.getD_eq_getElem _ _ hi']
      refine List.ext_getElem ?_ fun c h1 h2 => ?_
      · rw [(hpts i hi').1]; simp [hlen]
      · have h2' : c < last.length ∧ c < q.length := by simpa using h2
        rw [(hpts i hi').2 c h1 h2'.1 h2'.2]; simp
  induction i with
  | zero =>
    simp only [Nat.cast_zero, zero_div, zero_mul, add_zero]
    rw [Spec.travelled, Spec.travelled]
    refine Finset.sum_congr rfl fun k hk => ?_
    rw [Finset.mem_range] at hk
    rw [hp, List.getD_append _ _ _ _ (by omega), List.getD_append _ _ _ _ (by omega)]
  | succ i ih =>
    rw [← Nat.add_assoc, Spec.travelled, Finset.sum_range_succ, ← Spec.travelled, ih (by push_cast at hi; omega)]
    have hstep : ((s'.path.getD (s.path.length - 1 + i + 1) []).sub (s'.path.getD (s.path.length - 1 + i) [])).norm =
        1 / N * Spec.dist q last := by
      have e1 := hseg i (by push_cast at hi; omega)
      have e2 := hseg (i + 1) hi
      rw [Nat.add_assoc, e1, e2, ← norm_sub]
      have : Pt.sub (List.zipWith (fun x y => x + ((i + 1 : ℕ) : ℝ) / N * (y - x)) last q)
          (List.zipWith (fun x y => x + (i : ℝ) / N * (y - x)) last q) = Pt.smul (1 / N) (q.sub last) := by
        refine List.ext_getElem (by simp [Pt.sub, Pt.smul, hlen]) fun c h1 h2 => ?_
        simp only [Pt.sub, Pt.smul, List.getElem_zipWith, List.getElem_map]
        push_cast
        ring
      rw [this, norm_smul, abs_of_pos (by positivity)]
    rw [hstep]
    push_cast
    ring

/-- C38.  Along the segment added by one call `x()` grows linearly: point `i` of the segment is at the
fraction `i / N` of the distance between the two waypoints. -/
theorem C38_linear (F : Fmt) (D : Points) (s s' : KPath) (W : List Pt) (hs : Spec.Reach F D s W) (p : PArg)
    (name : Option String) (N : ℤ) (q last : Pt) (h : s.to F D p name N = (s', .ok ()))
    (hq : Spec.pointOf D p = some q) (hlast : W.getLast? = some last) (i : ℕ) (hi : (i : ℤ) ≤ N) :
    ∃ a b, s.x.getLast? = some a ∧ s'.x[s.path.length - 1 + i]? = some b ∧ b = a + (i : ℝ) / N * Spec.dist q last := by
  have inv := C37_invariant F D s W hs
  have inv' := C37_invariant F D s' _ (Spec.Reach.step hs h hq)
  have hpl : 0 < s.path.length := List.length_pos_iff.2 inv.nonempty
  have hlast' : s.path.getLast? = some last := by
    have hW : W ≠ [] := by rintro rfl; simp at hlast
    have hWl : 0 < W.length := List.length_pos_iff.2 hW
    have hj : W.length - 1 < s.indices.length := by rw [inv.indices]; omega
    have := inv.waypoint (W.length - 1) hj (by omega)
    have hl := inv.last
    rw [List.getLast?_eq_getElem?, inv.indices, List.getElem?_eq_getElem hj, Option.some.injEq] at hl
    rw [hl] at this
    rw [List.getLast?_eq_getElem?, this, ← hlast, List.getLast?_eq_getElem?, List.getElem?_eq_getElem]
  obtain ⟨q', new, nm, hq', hdim, hN, hp, hl, hidx, hn, hpt⟩ := C37_to F D s s' p name N h
  rw [hq] at hq'
  cases hq'
  have hlen : last.length = q.length := by rw [inv.dim _ (List.mem_of_getLast? hlast'), hdim]
  obtain ⟨hx1, -, hx3, -⟩ := C38_x s inv.nonempty
  obtain ⟨-, -, hx3', -⟩ := C38_x s' inv'.nonempty
  refine ⟨_, _, ?_, hx3' _ ?_, travelled_step F D s s' p name N q last h hq hlast' hlen i hi⟩
  · rw [List.getLast?_eq_getElem?, hx1]; exact hx3 _ (by omega)
  · rw [hp, List.length_append]; omega

/-- C38.  `sym_x()` has one entry per waypoint: the entry of `x()` at the index of the waypoint.  It starts at zero, and two
consecutive entries differ by the distance of the two waypoints. -/
theorem C38_sym_x (F : Fmt) (D : Points) (s : KPath) (W : List Pt) (hs : Spec.Reach F D s W) :
    s.symX.length = W.length ∧ s.symX = s.indices.map (fun i => s.x.getD i 0) ∧ s.symX.head? = some 0 ∧
    ∀ j (h1 : j + 1 < W.length) (h2 : j + 1 < s.symX.length),
      s.symX[j + 1] - s.symX[j] = Spec.dist W[j + 1] W[j] := by
  have inv := C37_invariant F D s W hs
  have hpl : 0 < s.path.length := List.length_pos_iff.2 inv.nonempty
  have hlt : ∀ {s : KPath} {W : List Pt}, Spec.PathInv s W → ∀ a ∈ s.indices, a < s.path.length := by
    intro s W ih a ha
    obtain ⟨j, hj, rfl⟩ := List.getElem_of_mem ha
    have := ih.waypoint j hj (by rw [← ih.indices]; exact hj)
    exact (List.getElem?_eq_some_iff.1 this).1
  have heq : s.symX = s.indices.map (Spec.travelled s.path) := by
    rw [kpath_symX_eq, show s.path.length - 1 + 1 = s.path.length by omega,
      filter_range_eq _ _ inv.increasing (hlt inv)]
  obtain ⟨hx1, -, hx3, -⟩ := C38_x s inv.nonempty
  refine ⟨by rw [heq]; simp [inv.indices], ?_, ?_, ?_⟩
  · rw [heq]
    refine List.map_congr_left fun a ha => ?_
    rw [List.getD_eq_getElem?_getD, hx3 a (hlt inv a ha)]; rfl
  · rw [heq, List.head?_map, inv.first]; simp [Spec.travelled]
  · have key : ∀ j (h1 : j + 1 < W.length) (h2 : j + 1 < s.indices.length),
        Spec.travelled s.path s.indices[j + 1] - Spec.travelled s.path s.indices[j] = Spec.dist W[j + 1] W[j] := by
      clear heq hx1 hx3 hpl inv
      induction hs with
      | start h hq => intro j h1; simp at h1
      | step hs h hq ih =>
        rename_i s s' W p q name N
        have inv := C37_invariant F D s W hs
        have inv' := C37_invariant F D s' _ (Spec.Reach.step hs h hq)
        have hpl : 0 < s.path.length := List.length_pos_iff.2 inv.nonempty
        obtain ⟨q', new, nm, hq', hdim, hN, hp, hl, hidx, hn, hpt⟩ := C37_to F D s s' p name N h
        rw [hq] at hq'
        cases hq'
        have hsame : ∀ a, a < s.path.length → Spec.travelled s'.path a = Spec.travelled s.path a := by
          intro a ha
          rw [Spec.travelled, Spec.travelled]
          refine Finset.sum_congr rfl fun k hk => ?_
          rw [Finset.mem_range] at hk
          rw [hp, List.getD_append _ _ _ _ (by omega), List.getD_append _ _ _ _ (by omega)]
        intro j h1 h2
        simp only [hidx]
        by_cases hj : j + 1 < s.indices.length
        · have hjW : j + 1 < W.length := by rw [← inv.indices]; exact hj
          rw [List.getElem_append_left hj, List.getElem_append_left (by omega), List.getElem_append_left hjW,
            List.getElem_append_left (by omega), hsame _ (hlt inv _ (List.getElem_mem _)),
            hsame _ (hlt inv _ (List.getElem_mem _))]
          exact ih j hjW hj
        · have hjl : j + 1 = s.indices.length := by rw [hidx] at h2; simp at h2; omega
          have hjW : j + 1 = W.length := by rw [hjl, inv.indices]
          rw [List.getElem_append_right (by omega), List.getElem_append_left (by omega),
            List.getElem_append_right (by omega), List.getElem_append_left (by omega)]
          simp only [List.getElem_singleton]
          have hjl2 : j < s.indices.length := by omega
          have hl1 : s.indices[j] = s.path.length - 1 := by
            have := inv.last
            rw [List.getLast?_eq_getElem?, show s.indices.length - 1 = j by omega,
              List.getElem?_eq_getElem hjl2, Option.some.injEq] at this
            exact this
          have hw := inv.waypoint j hjl2 (by omega)
          rw [hl1, ← List.getLast?_eq_getElem?] at hw
          have hlen : (W[j]'(by omega)).length = q.length := by rw [inv.dim _ (List.mem_of_getLast? hw), hdim]
          have hst := travelled_step F D s s' p name N q _ h hq hw hlen N.toNat (by omega)
          rw [hl1, hsame (s.path.length - 1) (by omega)]
          have hNN : ((N.toNat : ℕ) : ℝ) = (N : ℝ) := by
            exact_mod_cast Int.toNat_of_nonneg (show (0 : ℤ) ≤ N by omega)
          rw [hNN, div_self (by exact_mod_cast (show N ≠ 0 by omega)), one_mul] at hst
          rw [show s'.path.length - 1 = s.path.length - 1 + N.toNat by rw [hp, List.length_append]; omega, hst]
          ring
    intro j h1 h2
    have h2' : j + 1 < s.indices.length := by rw [inv.indices]; exact h1
    simp only [heq, List.getElem_map]
    exact key j h1 h2'

/-- The path Γ → X → M of the square lattice, with 32 and 2 points. -/
theorem exReach : ∃ s, Spec.Reach ⟨fun _ => "", fun _ => ""⟩
    (fun n => if n = "X" then some ([0, 1 / 2], "X") else none) s [[0, 0], [0, 1 / 2], [1 / 2, 1 / 2]] ∧
    s.path.length = 35 := by
  obtain ⟨s1, h1⟩ := (C37_to_succeeds_iff ⟨fun _ => "", fun _ => ""⟩
    (fun n => if n = "X" then some ([0, 1 / 2], "X") else none) ⟨[[0, 0]], [0], [""]⟩ (.str "X") none 32).1.2
    ⟨⟨_, rfl, rfl⟩, by norm_num, by simp⟩
  have r0 : Spec.Reach ⟨fun _ => "", fun _ => ""⟩ (fun n => if n = "X" then some ([0, 1 / 2], "X") else none)
    ⟨[[0, 0]], [0], [""]⟩ [[0, 0]] := Spec.Reach.start (p := .arr [0, 0]) (name := none) rfl rfl
  have r1 := Spec.Reach.step r0 h1 (q := [0, 1 / 2]) rfl
  obtain ⟨q1, new1, nm1, -, -, -, hp1, hl1, -⟩ := C37_to _ _ _ _ _ _ _ h1
  obtain ⟨s2, h2⟩ := (C37_to_succeeds_iff ⟨fun _ => "", fun _ => ""⟩
    (fun n => if n = "X" then some ([0, 1 / 2], "X") else none) s1 (.arr [1 / 2, 1 / 2]) (some "M") 2).1.2
    ⟨⟨_, rfl, by rw [hp1]; rfl⟩, by norm_num, by simp⟩
  obtain ⟨q2, new2, nm2, -, -, -, hp2, hl2, -⟩ := C37_to _ _ _ _ _ _ _ h2
  exact ⟨s2, Spec.Reach.step r1 h2 rfl, by rw [hp2, hp1]; simp; omega⟩

example : ∃ s : KPath, s.symX.length = 3 ∧ s.x.length = 35 ∧ s.names.length = 3 := by
  obtain ⟨s, hs, hl⟩ := exReach
  have inv := C37_invariant _ _ _ _ hs
  exact ⟨s, (C38_sym_x _ _ _ _ hs).1, by rw [(C38_x s inv.nonempty).1, hl], inv.names⟩

/-- The second call with a point of the wrong dimension. -/
example : ∃ s : KPath, s.names.length = s.indices.length + 1 := by
  obtain ⟨s, hs, -⟩ := exReach
  have inv := C37_invariant _ _ _ _ hs
  obtain ⟨s', e, -, h⟩ := C37_failed_call_adds_name _ _ s _ hs [0, 0, 0] "A" 0 (Or.inr le_rfl)
  exact ⟨s', h⟩

end TB
