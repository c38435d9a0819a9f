import Mathlib.Tactic.Linarith
import Mathlib.Tactic.FieldSimp
import Mathlib.Tactic.Ring
import Mathlib.Tactic.NormNum
import Mathlib.Data.Rat.Floor
import Verif.Model.Logger

/-!
# C36: the optimisation logger
-/

set_option linter.unusedSectionVars false

namespace TB

variable {K : Type} [Field K] [LinearOrder K]

/-- The data calls of a history, in order. -/
def Spec.dataCalls (h : List (LogCall K)) : List (ℤ × K × List K) :=
  h.filterMap fun c => match c with
    | .data i l e => some (i, l, e)
    | _ => none

/-- The data entries of a stream, in order. -/
def Spec.dataEntries (s : List (Entry K)) : List (ℤ × K × List K) :=
  s.filterMap fun c => match c with
    | .data i l e => some (i, l, e)
    | _ => none

/-- The messages of a stream, in order. -/
def Spec.messages (s : List (Entry K)) : List String :=
  s.filterMap fun c => match c with
    | .msg m => some m
    | _ => none

/-- The messages a history should leave: those passed to `add_message` and one `"aborted"` at the first abort. -/
def Spec.wantMessages : Bool → List (LogCall K) → List String
  | _, [] => []
  | b, .message m :: h => m :: Spec.wantMessages b h
  | true, .abort :: h => Spec.wantMessages true h
  | false, .abort :: h => "aborted" :: Spec.wantMessages true h
  | b, .data _ _ _ :: h => Spec.wantMessages b h
  | b, .setCount _ :: h => Spec.wantMessages b h

variable [IsStrictOrderedRing K] [FloorRing K]

theorem addData_fst (g : Logger K) (i : ℤ) (l : K) (e : List K) : (g.addData i l e).1 =
    { g with
      stream := g.stream ++ [.data i l e]
      iterations := g.iterations ++ [if g.count then g.iterationCount + 1 else i]
      loss := g.loss ++ [l] } := by
  rw [Logger.addData]
  cases g.printLoss
  · rfl
  · simp only [if_true]; cases errorVis e <;> rfl

theorem run_append (h : List (LogCall K)) (g : Logger K) :
    Spec.dataEntries (h.foldl Logger.step g).stream = Spec.dataEntries g.stream ++ Spec.dataCalls h ∧
    (h.foldl Logger.step g).loss = g.loss ++ (Spec.dataCalls h).map (fun x => x.2.1) ∧
    (h.foldl Logger.step g).iterations.length = g.iterations.length + (Spec.dataCalls h).length ∧
    Spec.messages (h.foldl Logger.step g).stream = Spec.messages g.stream ++ Spec.wantMessages g.aborted h ∧
    (h.foldl Logger.step g).aborted = (g.aborted || h.any fun c => match c with | .abort => true | _ => false) := by
  induction h generalizing g with
  | nil => simp [Spec.dataCalls, Spec.wantMessages]
  | cons c h ih =>
    obtain ⟨h1, h2, h3, h4, h5⟩ := ih (g.step c)
    rw [List.foldl_cons]
    cases c with
    | message m =>
      simp only [Logger.step, Logger.addMessage] at *
      refine ⟨?_, ?_, ?_, ?_, ?_⟩
      · rw [h1]; simp [Spec.dataEntries, Spec.dataCalls]
      · rw [h2]; simp [Spec.dataCalls]
      · rw [h3]; simp [Spec.dataCalls]
      · rw [h4]; simp [Spec.messages, Spec.wantMessages]
      · rw [h5]; simp
    | abort =>
      by_cases hab : g.aborted = true
      · have hg : g.step .abort = g := by simp [Logger.step, Logger.abort, hab]
        rw [hg] at h1 h2 h3 h4 h5 ⊢
        refine ⟨?_, ?_, ?_, ?_, ?_⟩
        · rw [h1]; simp [Spec.dataCalls]
        · rw [h2]; simp [Spec.dataCalls]
        · rw [h3]; simp [Spec.dataCalls]
        · rw [h4]; simp [Spec.wantMessages, hab]
        · rw [h5]; simp [hab]
      · have hf : g.aborted = false := by simpa using hab
        have hg : g.step .abort = { g.addMessage "aborted" with aborted := true } := by
          simp [Logger.step, Logger.abort, hf]
        rw [hg] at h1 h2 h3 h4 h5 ⊢
        refine ⟨?_, ?_, ?_, ?_, ?_⟩
        · rw [h1]; simp [Spec.dataCalls, Spec.dataEntries, Logger.addMessage]
        · rw [h2]; simp [Spec.dataCalls, Logger.addMessage]
        · rw [h3]; simp [Spec.dataCalls, Logger.addMessage]
        · rw [h4]; simp [Spec.wantMessages, Spec.messages, hf, Logger.addMessage]
        · rw [h5]; simp [hf]
    | data i l e =>
      have hg : g.step (.data i l e) = _ := addData_fst g i l e
      rw [hg] at h1 h2 h3 h4 h5 ⊢
      refine ⟨?_, ?_, ?_, ?_, ?_⟩
      · rw [h1]; simp [Spec.dataCalls, Spec.dataEntries]
      · rw [h2]; simp [Spec.dataCalls]
      · rw [h3]; simp [Spec.dataCalls]; omega
      · rw [h4]; simp [Spec.wantMessages, Spec.messages]
      · rw [h5]; simp
    | setCount b =>
      simp only [Logger.step] at *
      refine ⟨?_, ?_, ?_, ?_, ?_⟩
      · rw [h1]; simp [Spec.dataCalls]
      · rw [h2]; simp [Spec.dataCalls]
      · rw [h3]; simp [Spec.dataCalls]
      · rw [h4]; simp [Spec.wantMessages]
      · rw [h5]; simp

/-- C36.  After any history of calls on a new logger (including calls that raised): the data entries of the stream are
the data calls in order, the messages of the stream are those of the history with one `"aborted"` for the first
`abort()`, the losses are those of the data calls in order, there is one iteration number per data call, and the
logger is aborted iff `abort()` was called. -/
theorem C36_history (p u v : Bool) (h : List (LogCall K)) :
    let g := h.foldl Logger.step (Logger.new p u v)
    Spec.dataEntries g.stream = Spec.dataCalls h ∧ Spec.messages g.stream = Spec.wantMessages false h ∧
    g.loss = (Spec.dataCalls h).map (fun x => x.2.1) ∧ g.iterations.length = (Spec.dataCalls h).length ∧
    (g.aborted = true ↔ ∃ c ∈ h, c matches .abort) := by
  obtain ⟨h1, h2, h3, h4, h5⟩ := run_append h (Logger.new p u v : Logger K)
  refine ⟨h1, h4, h2, by simpa [Logger.new] using h3, ?_⟩
  rw [h5]
  simp only [Logger.new, Bool.false_or, List.any_eq_true]

/-- C36.  `last_loss()` returns the loss of the last data call, and raises `IndexError` exactly when there was none;
`iteration_count()` is the last recorded iteration number, `-1` if there is none. -/
theorem C36_last (p u v : Bool) (h : List (LogCall K)) :
    let g := h.foldl Logger.step (Logger.new p u v)
    (∀ l, g.lastLoss = .ok l ↔ ∃ pre i e, Spec.dataCalls h = pre ++ [(i, l, e)]) ∧
    (g.lastLoss = .error .indexError ↔ Spec.dataCalls h = []) ∧
    (∀ pre i, g.iterations = pre ++ [i] → g.iterationCount = i) ∧
    (Spec.dataCalls h = [] → g.iterationCount = -1) := by
  intro g
  obtain ⟨-, -, h3, h4, -⟩ := C36_history p u v h
  have h3' : g.loss = (Spec.dataCalls h).map fun x => x.2.1 := h3
  have h4' : g.iterations.length = (Spec.dataCalls h).length := h4
  refine ⟨fun l => ?_, ?_, fun pre i hi => ?_, fun h0 => ?_⟩
  · rw [Logger.lastLoss, h3', List.getLast?_map]
    rcases List.eq_nil_or_concat (Spec.dataCalls h) with h0 | ⟨pre, x, h0⟩
    · rw [h0]; simp
    · rw [h0, List.concat_eq_append, List.getLast?_append]
      simp only [List.getLast?_singleton, Option.some_or, Option.map_some, Except.ok.injEq]
      constructor
      · rintro rfl; exact ⟨pre, x.1, x.2.2, rfl⟩
      · rintro ⟨pre', i, e, he⟩
        obtain ⟨-, h2⟩ := List.append_inj' he rfl
        simp only [List.cons.injEq, and_true] at h2
        rw [h2]
  · rw [Logger.lastLoss, h3', List.getLast?_map]
    rcases List.eq_nil_or_concat (Spec.dataCalls h) with h0 | ⟨pre, x, h0⟩
    · rw [h0]; simp
    · rw [h0, List.concat_eq_append]; simp
  · rw [Logger.iterationCount, hi]; simp
  · rw [h0] at h4'
    rw [Logger.iterationCount, List.eq_nil_of_length_eq_zero h4']; rfl

/-- C36.  A second `abort()` raises `ValueError` and changes nothing; the first one succeeds, and adds one message. -/
theorem C36_abort (g : Logger K) :
    (g.aborted = true → g.abort = (g, .error .valueError)) ∧
    (g.aborted = false → g.abort.2 = .ok () ∧ g.abort.1.aborted = true ∧
      g.abort.1.stream = g.stream ++ [.msg "aborted"] ∧ g.abort.1.loss = g.loss ∧ g.abort.1.iterations = g.iterations ∧
      g.abort.1.abort = (g.abort.1, .error .valueError)) := by
  constructor
  · intro h; simp [Logger.abort, h]
  · intro h
    have : g.abort = ({ g.addMessage "aborted" with aborted := true }, .ok ()) := by simp [Logger.abort, h]
    rw [this]
    exact ⟨rfl, rfl, rfl, rfl, rfl, by simp [Logger.abort]⟩

/-- No call of the history changes `count` to another value than `b`. -/
def Spec.countStays (b : Bool) (h : List (LogCall K)) : Prop := ∀ c ∈ h, ∀ b', c = .setCount b' → b' = b

theorem iterations_run (b : Bool) (h : List (LogCall K)) (hb : Spec.countStays b h) (g : Logger K) (hg : g.count = b) :
    (h.foldl Logger.step g).iterations =
      g.iterations ++ if b then (List.range (Spec.dataCalls h).length).map (fun (j : ℕ) => g.iterationCount + 1 + (j : ℤ))
        else (Spec.dataCalls h).map fun x => x.1 := by
  induction h generalizing g with
  | nil => cases b <;> simp [Spec.dataCalls]
  | cons c h ih =>
    have hb' : Spec.countStays b h := fun c hc => hb c (List.mem_cons_of_mem _ hc)
    rw [List.foldl_cons]
    cases c with
    | message m =>
      rw [ih hb' (g.step (.message m)) hg]
      simp [Logger.step, Logger.addMessage, Spec.dataCalls, Logger.iterationCount]
    | abort =>
      have hc : (g.step .abort).count = b := by
        rw [Logger.step, Logger.abort]; split <;> exact hg
      rw [ih hb' _ hc]
      have hi : (g.step .abort).iterations = g.iterations := by
        rw [Logger.step, Logger.abort]; split <;> rfl
      simp [hi, Spec.dataCalls, Logger.iterationCount]
    | data i l e =>
      have hd : g.step (.data i l e) = _ := addData_fst g i l e
      have hc : (g.step (.data i l e)).count = b := by rw [hd]; exact hg
      rw [ih hb' _ hc, hd]
      cases b
      · simp [hg, Spec.dataCalls]
      · simp only [hg, if_true, Spec.dataCalls, List.filterMap_cons, List.length_cons, Logger.iterationCount,
          List.append_assoc]
        congr 1
        rw [List.range_succ_eq_map]
        simp only [List.map_cons, List.map_map, List.singleton_append]
        congr 1
        · simp
        · refine List.map_congr_left fun j _ => ?_
          simp only [Function.comp, List.getLastD_concat]
          push_cast; ring
    | setCount b' =>
      have : b' = b := hb _ (List.mem_cons_self) b' rfl
      subst this
      rw [ih hb' (g.step (.setCount b')) rfl]
      simp [Logger.step, Spec.dataCalls, Logger.iterationCount]

/-- C36.  While `count` stays off the recorded iterations are the ones passed to `add_data`; while it stays on they are
`0, 1, 2, ...` whatever was passed. -/
theorem C36_iterations (p u v : Bool) (h : List (LogCall K)) :
    (Spec.countStays false h → (h.foldl Logger.step (Logger.new p u v)).iterations =
      (Spec.dataCalls h).map fun x => x.1) ∧
    (Spec.countStays true h →
      ((LogCall.setCount true :: h).foldl Logger.step (Logger.new p u v)).iterations =
        (List.range (Spec.dataCalls h).length).map fun (j : ℕ) => (j : ℤ)) := by
  constructor
  · intro hb
    rw [iterations_run false h hb _ rfl]; simp [Logger.new]
  · intro hb
    rw [List.foldl_cons, iterations_run true h hb _ rfl]
    simp [Logger.new, Logger.step, Logger.iterationCount]

theorem pyRound_bounds {x : K} {a b : ℤ} (h1 : (a : K) - 1 / 2 < x) (h2 : x ≤ b) : a ≤ pyRound x ∧ pyRound x ≤ b := by
  have f1 := Int.floor_le x
  have f2 := Int.lt_floor_add_one x
  have hfb : ⌊x⌋ ≤ b := by exact_mod_cast (f1.trans h2)
  have hfb' : ¬ x - ⌊x⌋ < 1 / 2 → ⌊x⌋ + 1 ≤ b := by
    intro h
    have hlt : (⌊x⌋ : K) < b := by linarith
    have : ⌊x⌋ < b := by exact_mod_cast hlt
    omega
  have hfa : a ≤ ⌊x⌋ + 1 := by
    have : (a : K) < ((⌊x⌋ + 1 + 1 : ℤ) : K) := by push_cast; linarith
    have : a < ⌊x⌋ + 1 + 1 := by exact_mod_cast this
    omega
  have hfa' : x - ⌊x⌋ ≤ 1 / 2 → a ≤ ⌊x⌋ := by
    intro h
    have : (a : K) < ((⌊x⌋ + 1 : ℤ) : K) := by push_cast; linarith
    have : a < ⌊x⌋ + 1 := by exact_mod_cast this
    omega
  simp only [pyRound]
  by_cases c1 : x - ⌊x⌋ < 1 / 2
  · rw [if_pos c1]; exact ⟨hfa' c1.le, hfb⟩
  · rw [if_neg c1]
    by_cases c2 : 1 / 2 < x - ⌊x⌋
    · rw [if_pos c2]; exact ⟨hfa, hfb' c1⟩
    · rw [if_neg c2]
      by_cases c3 : ⌊x⌋ % 2 = 0
      · rw [if_pos c3]; exact ⟨hfa' (not_lt.1 c2), hfb⟩
      · rw [if_neg c3]; exact ⟨hfa, hfb' c1⟩

theorem foldl_max_ge (l : List K) (e : K) : e ≤ l.foldl max e ∧ (∀ x ∈ l, x ≤ l.foldl max e) ∧
    (l.foldl max e = e ∨ l.foldl max e ∈ l) := by
  induction l generalizing e with
  | nil => simp
  | cons a l ih =>
    obtain ⟨h1, h2, h3⟩ := ih (max e a)
    rw [List.foldl_cons]
    refine ⟨(le_max_left _ _).trans h1, ?_, ?_⟩
    · intro x hx
      rcases List.mem_cons.1 hx with rfl | hx
      · exact (le_max_right _ _).trans h1
      · exact h2 x hx
    · rcases h3 with h3 | h3
      · rcases max_choice e a with hm | hm
        · left; rw [h3, hm]
        · right; rw [h3, hm]; simp
      · right; simp [h3]

/-- C36.  With `print_loss` on, `add_data` with errors that are not negative shows one character per error, each of them
a space or one of the eight block characters U+2581 ... U+2588, at least one of them the full block; this
needs one error to be positive. -/
theorem C36_error_characters (g : Logger K) (hp : g.printLoss = true) (i : ℤ) (l : K) (maxErr : List K)
    (hn : ∀ e ∈ maxErr, 0 ≤ e) (hpos : ∃ e ∈ maxErr, 0 < e) :
    ∃ v, (g.addData i l maxErr).2 = .ok (some v) ∧ v.length = maxErr.length ∧
      (∀ c ∈ v, c = 0x20 ∨ 0x2581 ≤ c ∧ c ≤ 0x2588) ∧ 0x2588 ∈ v := by
  cases maxErr with
  | nil => simp at hpos
  | cons e es =>
    obtain ⟨h1, h2, h3⟩ := foldl_max_ge es e
    set scale := es.foldl max e with hs
    have hle : ∀ x ∈ e :: es, x ≤ scale := by
      intro x hx
      rcases List.mem_cons.1 hx with rfl | hx
      · exact h1
      · exact h2 x hx
    have hmem : scale ∈ e :: es := by
      rcases h3 with h3 | h3
      · rw [h3]; simp
      · simp [h3]
    have hsp : 0 < scale := by
      obtain ⟨x, hx, hx0⟩ := hpos
      exact hx0.trans_le (hle x hx)
    have hv : errorVis (e :: es) = .ok ((e :: es).map fun err => if err / scale ≤ 1 / 16 then 0x20
        else 0x2581 + pyRound (err / scale * 8 - 1)) := by
      rw [errorVis, if_neg hsp.ne']
    refine ⟨_, by rw [Logger.addData, if_pos hp, hv], by simp, ?_, ?_⟩
    · intro c hc
      obtain ⟨x, hx, rfl⟩ := List.mem_map.1 hc
      by_cases hq : x / scale ≤ 1 / 16
      · left; rw [if_pos hq]
      · right
        rw [if_neg hq]
        have hq1 : x / scale ≤ 1 := (div_le_one hsp).2 (hle x hx)
        have hq2 : 1 / 16 < x / scale := not_le.1 hq
        obtain ⟨b1, b2⟩ := pyRound_bounds (K := K) (x := x / scale * 8 - 1) (a := 0) (b := 7)
          (by push_cast; linarith) (by push_cast; linarith)
        omega
    · refine List.mem_map.2 ⟨scale, hmem, ?_⟩
      have h16 : ¬ (1 : K) ≤ 1 / 16 := by norm_num
      rw [div_self hsp.ne', if_neg h16]
      have : pyRound ((1 : K) * 8 - 1) = 7 := by
        obtain ⟨b1, b2⟩ := pyRound_bounds (K := K) (x := 1 * 8 - 1) (a := 7) (b := 7)
          (by push_cast; norm_num) (by push_cast; norm_num)
        omega
      rw [this]; norm_num

/-- C36.  With `print_loss` on (the default), `add_data` for a perfect fit, where all errors are zero, raises
`ValueError`, and so does an empty list of errors; the data have been recorded by then. -/
theorem C36_perfect_fit_raises (g : Logger K) (hp : g.printLoss = true) (i : ℤ) (l : K) (maxErr : List K)
    (h0 : ∀ e ∈ maxErr, e = 0) :
    (g.addData i l maxErr).2 = .error .valueError ∧
    (g.addData i l maxErr).1.stream = g.stream ++ [.data i l maxErr] ∧
    (g.addData i l maxErr).1.loss = g.loss ++ [l] := by
  refine ⟨?_, by rw [addData_fst], by rw [addData_fst]⟩
  have : errorVis maxErr = .error .valueError := by
    cases maxErr with
    | nil => rfl
    | cons e es =>
      have hz : es.foldl max e = 0 := by
        rcases (foldl_max_ge es e).2.2 with h | h
        · rw [h]; exact h0 e (by simp)
        · exact h0 _ (List.mem_cons_of_mem _ h)
      rw [errorVis, if_pos hz]
  rw [Logger.addData, if_pos hp, this]

/-- A history with messages, data, an abort and a repeated abort. -/
def exHistory : List (LogCall ℚ) :=
  [.message "start", .data 3 (1 / 2) [1, 1 / 3], .abort, .setCount true, .data 9 (1 / 4) [1 / 4, 0], .abort, .message "end"]

example : let g := exHistory.foldl Logger.step (Logger.new true true false)
    g.loss = [1 / 2, 1 / 4] ∧ g.iterations = [3, 4] ∧ g.aborted = true ∧
    Spec.messages g.stream = ["start", "aborted", "end"] ∧ g.iterationCount = 4 := by
  decide +kernel

example : (g : Logger ℚ) → g.printLoss = true → (g.addData 0 1 [1, 1 / 2, 1 / 32]).2 = .ok (some [0x2588, 0x2584, 0x20]) := by
  intro g hg
  rw [Logger.addData, if_pos hg, show errorVis ([1, 1 / 2, 1 / 32] : List ℚ) = .ok [0x2588, 0x2584, 0x20] by decide +kernel]

example : Spec.countStays true [LogCall.data 7 (1 : ℚ) [], .setCount true, .data 3 2 []] := by
  intro c hc b hb; subst hb; simpa using hc

end TB
