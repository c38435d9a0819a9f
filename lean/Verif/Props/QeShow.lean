import Mathlib.Data.List.Sort
import Mathlib.Data.List.Nodup
import Mathlib.Algebra.BigOperators.Group.List.Basic
import Mathlib.Algebra.Order.BigOperators.Group.List
import Mathlib.Tactic.Linarith
import Verif.Model.QeShow

/-!
# C143: `print_orbitals` and the lines of `plot_bands`
-/

namespace TB.PropsQeShow
open TB TB.QeShow

/-- What `np.argsort` promises. -/
def IsArgsort (argsort : List ℝ → List ℕ) : Prop :=
  ∀ l, (argsort l).Perm (List.range l.length) ∧ (argsort l).Pairwise fun i j => l.getD i 0 ≤ l.getD j 0

/-- There is such a function. -/
theorem isArgsort_exists : ∃ f, IsArgsort f := by
  classical
  refine ⟨fun l => (List.range l.length).mergeSort fun i j => decide (l.getD i 0 ≤ l.getD j 0), fun l => ⟨List.mergeSort_perm _ _, ?_⟩⟩
  have := List.pairwise_mergeSort (le := fun i j => decide (l.getD i 0 ≤ l.getD j 0))
    (fun a b c h1 h2 => by simp only [decide_eq_true_eq] at *; exact le_trans h1 h2)
    (fun a b => by simp only [Bool.or_eq_true, decide_eq_true_eq]; exact le_total _ _) (List.range l.length)
  exact this.imp fun h => by simpa using h

theorem orbLoop_ok (dist : List ℝ) (orbitals : List String) (t : ℝ) (l : List ℕ) (v : List (String × ℝ))
    (hl : l.Pairwise fun i j => dist.getD j 0 ≤ dist.getD i 0) (ho : ∀ i ∈ l, t ≤ dist.getD i 0 → i < orbitals.length) :
    orbLoop dist orbitals t l v = .ok (v ++ (l.filter fun i => decide (t ≤ dist.getD i 0)).map fun i => (orbitals.getD i "", dist.getD i 0)) := by
  induction l generalizing v with
  | nil => simp [orbLoop]
  | cons i l ih =>
    rw [List.pairwise_cons] at hl
    rw [orbLoop]
    by_cases h : dist.getD i 0 < t
    · have hnone : ∀ j ∈ i :: l, ¬ t ≤ dist.getD j 0 := by
        intro j hj
        rcases List.mem_cons.1 hj with rfl | hj
        · exact not_le.2 h
        · exact not_le.2 (lt_of_le_of_lt (hl.1 j hj) h)
      rw [if_pos h, List.filter_eq_nil_iff.2 (fun j hj => by simpa using hnone j hj)]
      simp
    · have hlt := ho i (by simp) (not_lt.1 h)
      have e : orbitals[i]? = some (orbitals.getD i "") := by
        rw [List.getD_eq_getElem?_getD, List.getElem?_eq_getElem hlt]; rfl
      rw [if_neg h, e]
      simp only []
      rw [ih _ hl.2 (fun j hj => ho j (by simp [hj])), List.filter_cons_of_pos (by simpa using not_lt.1 h)]
      simp

theorem orbLoop_error (dist : List ℝ) (orbitals : List String) (t : ℝ) (l : List ℕ) (v : List (String × ℝ))
    (hl : l.Pairwise fun i j => dist.getD j 0 ≤ dist.getD i 0) (i : ℕ) (hi : i ∈ l) (ht : t ≤ dist.getD i 0) (ho : orbitals.length ≤ i) :
    orbLoop dist orbitals t l v = .error .indexError := by
  induction l generalizing v with
  | nil => simp at hi
  | cons j l ih =>
    rw [List.pairwise_cons] at hl
    have hj : ¬ dist.getD j 0 < t := by
      rcases List.mem_cons.1 hi with rfl | h
      · exact not_lt.2 ht
      · exact not_lt.2 (le_trans ht (hl.1 i h))
    rw [orbLoop, if_neg hj]
    cases ho' : orbitals[j]? with
    | none => rfl
    | some o =>
      rcases List.mem_cons.1 hi with rfl | h
      · rw [List.getElem?_eq_none ho] at ho'
        cases ho'
      · exact ih _ hl.2 h

theorem dist_getD (a : List ℂ) (i : ℕ) : (distribution a).getD i 0 = ‖a.getD i 0‖ ^ 2 := by
  rw [distribution, List.getD_eq_getElem?_getD, List.getElem?_map, List.getD_eq_getElem?_getD]
  cases a[i]? <;> simp

/-- C143.  If every orbital has a name, exactly the orbitals with `|a|²` at least the threshold are printed, once each, with the largest first;
"None" is printed if there is none. -/
theorem C143_orbitals (argsort : List ℝ → List ℕ) (hs : IsArgsort argsort) (a : List ℂ) (orbitals : List String) (t : ℝ)
    (hn : a.length ≤ orbitals.length) :
    ∃ idx : List ℕ, idx.Nodup ∧ (∀ i, i ∈ idx ↔ i < a.length ∧ t ≤ ‖a.getD i 0‖ ^ 2) ∧
      idx.Pairwise (fun i j => ‖a.getD j 0‖ ^ 2 ≤ ‖a.getD i 0‖ ^ 2) ∧
      printOrbitals argsort a orbitals t = .ok (if idx = [] then none else some (idx.map fun i => (orbitals.getD i "", ‖a.getD i 0‖ ^ 2))) := by
  obtain ⟨h1, h2⟩ := hs (distribution a)
  have hlen : (distribution a).length = a.length := by simp [distribution]
  have hmem : ∀ i, i ∈ (argsort (distribution a)).reverse ↔ i < a.length := by
    intro i
    rw [List.mem_reverse, h1.mem_iff, List.mem_range, hlen]
  have hp : (argsort (distribution a)).reverse.Pairwise fun i j => (distribution a).getD j 0 ≤ (distribution a).getD i 0 := List.pairwise_reverse.2 h2
  refine ⟨(argsort (distribution a)).reverse.filter fun i => decide (t ≤ (distribution a).getD i 0), ?_, ?_, ?_, ?_⟩
  · exact ((List.nodup_reverse.2 (h1.nodup_iff.2 List.nodup_range))).filter _
  · intro i
    rw [List.mem_filter, hmem, decide_eq_true_eq, dist_getD]
  · refine (hp.filter _).imp fun h => ?_
    rw [dist_getD, dist_getD] at h
    exact h
  · rw [printOrbitals, orbLoop_ok _ _ _ _ _ hp fun i hi _ => lt_of_lt_of_le ((hmem i).1 hi) hn]
    simp only [List.nil_append, dist_getD, List.isEmpty_iff, List.map_eq_nil_iff]
    split <;> rfl

/-- C143.  Names may be missing for small contributions only: `IndexError` is raised exactly if an orbital without name reaches the threshold. -/
theorem C143_orbitals_error (argsort : List ℝ → List ℕ) (hs : IsArgsort argsort) (a : List ℂ) (orbitals : List String) (t : ℝ) :
    printOrbitals argsort a orbitals t = .error .indexError ↔ ∃ i, i < a.length ∧ orbitals.length ≤ i ∧ t ≤ ‖a.getD i 0‖ ^ 2 := by
  obtain ⟨h1, h2⟩ := hs (distribution a)
  have hlen : (distribution a).length = a.length := by simp [distribution]
  have hmem : ∀ i, i ∈ (argsort (distribution a)).reverse ↔ i < a.length := by
    intro i
    rw [List.mem_reverse, h1.mem_iff, List.mem_range, hlen]
  have hp : (argsort (distribution a)).reverse.Pairwise fun i j => (distribution a).getD j 0 ≤ (distribution a).getD i 0 := List.pairwise_reverse.2 h2
  constructor
  · intro h
    by_contra hc
    push Not at hc
    rw [printOrbitals, orbLoop_ok _ _ _ _ _ hp fun i hi ht => ?_] at h
    · simp only at h
      split at h <;> cases h
    · by_contra hlt
      have := hc i ((hmem i).1 hi) (not_lt.1 hlt)
      rw [dist_getD] at ht
      exact absurd ht (not_le.2 this)
  · rintro ⟨i, hi, ho, ht⟩
    rw [printOrbitals, orbLoop_error _ _ _ _ _ hp i ((hmem i).2 hi) (by rw [dist_getD]; exact ht) ho]

/-- C143.  For a normalised state at most `1/threshold` orbitals are printed, with contributions summing to at most one. -/
theorem C143_orbitals_count (argsort : List ℝ → List ℕ) (hs : IsArgsort argsort) (a : List ℂ) (orbitals : List String) (t : ℝ)
    (hn : a.length ≤ orbitals.length) (h1 : (a.map fun z => ‖z‖ ^ 2).sum = 1) (v : List (String × ℝ))
    (hv : printOrbitals argsort a orbitals t = .ok (some v)) : (v.map Prod.snd).sum ≤ 1 ∧ v.length * t ≤ 1 := by
  obtain ⟨idx, hnd, hmem, -, he⟩ := C143_orbitals argsort hs a orbitals t hn
  have hv' : v = idx.map fun i => (orbitals.getD i "", ‖a.getD i 0‖ ^ 2) := by
    rw [he] at hv
    have := Except.ok.inj hv
    split at this
    · cases this
    · exact (Option.some.inj this).symm
  have e1 : v.map Prod.snd = idx.map fun i => ‖a.getD i 0‖ ^ 2 := by rw [hv', List.map_map]; rfl
  have e2 : (a.map fun z => ‖z‖ ^ 2) = (List.range a.length).map fun i => ‖a.getD i 0‖ ^ 2 := by
    refine List.ext_getElem (by simp) fun i h h' => ?_
    simp only [List.getElem_map, List.getElem_range]
    rw [List.getD_eq_getElem?_getD, List.getElem?_eq_getElem (by simpa using h)]; rfl
  have hsub : (idx.map fun i => ‖a.getD i 0‖ ^ 2).sum ≤ ((List.range a.length).map fun i => ‖a.getD i 0‖ ^ 2).sum := by
    have hsp : idx.Subperm (List.range a.length) := List.subperm_of_subset hnd fun i hi => List.mem_range.2 ((hmem i).1 hi).1
    obtain ⟨l, hl, hl'⟩ := hsp
    rw [← (hl.map _).sum_eq]
    refine (hl'.map _).sum_le_sum fun x hx => ?_
    obtain ⟨i, _, rfl⟩ := List.mem_map.1 hx
    positivity
  have hle : (v.map Prod.snd).sum ≤ 1 := by rw [e1, ← h1, e2]; exact hsub
  refine ⟨hle, le_trans ?_ hle⟩
  rw [e1, hv', List.length_map]
  have key : ∀ l : List ℕ, (∀ i ∈ l, t ≤ ‖a.getD i 0‖ ^ 2) → (l.length : ℝ) * t ≤ (l.map fun i => ‖a.getD i 0‖ ^ 2).sum := by
    intro l
    induction l with
    | nil => intro _; simp
    | cons i l ih =>
      intro hl
      have := ih fun j hj => hl j (by simp [hj])
      have := hl i (by simp)
      simp only [List.length_cons, List.map_cons, List.sum_cons]
      push_cast
      linarith
  exact key idx fun i hi => ((hmem i).1 hi).2

/-! ## Lines -/

/-- The pieces of a curve that are drawn: between `NaN` columns. -/
def pieces {α : Type} : List (Option α) → List (List α)
  | [] => [[]]
  | none :: l => [] :: pieces l
  | some a :: l =>
    match pieces l with
    | [] => [[a]]
    | p :: ps => (a :: p) :: ps

/-- The result of the loop by recursion. -/
noncomputable def br : List (ℝ × ℝ) → List (Option (ℝ × ℝ))
  | [] => []
  | [a] => [some a]
  | a :: b :: l => open Classical in if b.1 ≤ a.1 then some a :: none :: br (b :: l) else some a :: br (b :: l)

theorem breakStep_cons (a : Option (ℝ × ℝ)) (z : List (Option (ℝ × ℝ))) (i : ℕ) : breakStep (a :: z) (i + 1) = a :: breakStep z i := by
  simp only [breakStep, List.getElem?_cons_succ]
  split
  · split <;> simp
  · rfl

theorem foldl_cons (a : Option (ℝ × ℝ)) (is : List ℕ) (z : List (Option (ℝ × ℝ))) :
    (is.map (· + 1)).foldl breakStep (a :: z) = a :: is.foldl breakStep z := by
  induction is generalizing z with
  | nil => rfl
  | cons i is ih => rw [List.map_cons, List.foldl_cons, breakStep_cons, ih, List.foldl_cons]

theorem br_head (b : ℝ × ℝ) (l : List (ℝ × ℝ)) : ∃ r, br (b :: l) = some b :: r := by
  cases l with
  | nil => exact ⟨_, rfl⟩
  | cons c l => rw [br]; split <;> exact ⟨_, rfl⟩

theorem breakLines_eq (z : List (ℝ × ℝ)) : breakLines z = br z := by
  induction z with
  | nil => rfl
  | cons a l ih =>
    cases l with
    | nil => rfl
    | cons b l =>
      have e : (List.range ((a :: b :: l).length - 1)).reverse = ((List.range ((b :: l).length - 1)).reverse.map (· + 1)) ++ [0] := by
        simp only [List.length_cons, Nat.add_sub_cancel]
        rw [List.range_succ_eq_map, List.reverse_cons, List.map_reverse]
      rw [breakLines, e, List.foldl_append, List.map_cons, foldl_cons]
      rw [breakLines] at ih
      rw [ih]
      obtain ⟨r, hr⟩ := br_head b l
      rw [List.foldl_cons, List.foldl_nil, br, hr, breakStep]
      simp only [List.getElem?_cons_zero, List.getElem?_cons_succ]
      split <;> rfl

/-- Two neighbouring pieces: the second does not continue to the right of the first. -/
def Joint (p q : List (ℝ × ℝ)) : Prop := ∃ a b, p.getLast? = some a ∧ q.head? = some b ∧ b.1 ≤ a.1

/-- C143.  The curve drawn by `plot_bands` consists of the samples in their order, broken into pieces: in each piece the position on the path
increases strictly, and it is broken only where it does not. -/
theorem C143_pieces (z : List (ℝ × ℝ)) : (pieces (breakLines z)).flatten = z ∧
    (∀ p ∈ pieces (breakLines z), p.IsChain fun a b => a.1 < b.1) ∧
    (pieces (breakLines z)).IsChain Joint ∧ (z ≠ [] → [] ∉ pieces (breakLines z)) := by
  rw [breakLines_eq]
  have key : ∀ (l : List (ℝ × ℝ)) (a : ℝ × ℝ), ∃ p ps, pieces (br (a :: l)) = (a :: p) :: ps ∧ ((a :: p) :: ps).flatten = a :: l ∧
      (∀ q ∈ (a :: p) :: ps, q.IsChain fun a b => a.1 < b.1) ∧ ((a :: p) :: ps).IsChain Joint ∧ [] ∉ ps := by
    intro l
    induction l with
    | nil => intro a; exact ⟨[], [], rfl, rfl, by simp, by simp, by simp⟩
    | cons b l ih =>
      intro a
      obtain ⟨p, ps, h1, h2, h3, h4, h5⟩ := ih b
      rw [br]
      split
      · rename_i hba
        refine ⟨[], (b :: p) :: ps, ?_, ?_, ?_, ?_, ?_⟩
        · rw [pieces, pieces, h1]
        · rw [List.flatten_cons, h2]; rfl
        · intro q hq
          rcases List.mem_cons.1 hq with rfl | hq
          · simp
          · exact h3 q hq
        · exact List.isChain_cons_cons.2 ⟨⟨a, b, rfl, rfl, hba⟩, h4⟩
        · simp [h5]
      · rename_i hba
        refine ⟨b :: p, ps, ?_, ?_, ?_, ?_, h5⟩
        · rw [pieces, h1]
        · rw [← h2]; rfl
        · intro q hq
          rcases List.mem_cons.1 hq with rfl | hq
          · exact List.isChain_cons_cons.2 ⟨not_le.1 hba, h3 _ (by simp)⟩
          · exact h3 q (by simp [hq])
        · cases ps with
          | nil => simp
          | cons q ps =>
            obtain ⟨⟨x, y, e1, e2, e3⟩, h⟩ := List.isChain_cons_cons.1 h4
            exact List.isChain_cons_cons.2 ⟨⟨x, y, by rw [← e1]; simp, e2, e3⟩, h⟩
  cases z with
  | nil => exact ⟨rfl, by simp [br, pieces], by simp [br, pieces], fun h => absurd rfl h⟩
  | cons a l =>
    obtain ⟨p, ps, h1, h2, h3, h4, h5⟩ := key l a
    rw [h1]
    exact ⟨h2, h3, h4, fun _ => by simp [h5]⟩

/-- Two bands on the path 0, 1, 2 are two pieces. -/
example : breakLines [(0, 5), (1, 6), (0, 7), (1, 8)] = [some (0, 5), some (1, 6), none, some (0, 7), some (1, 8)] := by
  rw [breakLines_eq, br, if_neg (by norm_num), br, if_pos (by norm_num), br, if_neg (by norm_num), br]

/-- Amplitudes 3/5 and 4i/5. -/
example (argsort : List ℝ → List ℕ) (hs : IsArgsort argsort) :
    ∃ idx : List ℕ, idx.Nodup ∧ (∀ i, i ∈ idx ↔ i < 2 ∧ 1 / 20 ≤ ‖([3 / 5, 4 / 5 * Complex.I] : List ℂ).getD i 0‖ ^ 2) ∧ 0 ∈ idx := by
  obtain ⟨idx, h1, h2, -, -⟩ := C143_orbitals argsort hs [3 / 5, 4 / 5 * Complex.I] ["s", "p"] (1 / 20) (by simp)
  refine ⟨idx, h1, h2, (h2 0).2 ⟨by simp, ?_⟩⟩
  simp only [List.getD_cons_zero]
  rw [show ((3 : ℂ) / 5) = ((3 / 5 : ℝ) : ℂ) by push_cast; rfl, Complex.norm_real]
  norm_num

end TB.PropsQeShow
