import Verif.Lemmas.Files
import Mathlib.Tactic.FinCases
import Mathlib.Tactic.Linarith

/-!
# C114: the files of `AsymTightBindingModel` and `BandStructureModel`
-/

set_option linter.unusedSectionVars false

namespace TB.Files
open Matrix TB

variable {C PO : Type} {d n m : ℕ}

/-! ## Specification -/

/-- The format of `load`: the given one, or the one of the ending of the name. -/
def Spec.LoadFormat (name : Name) (format : Option String) (f : String) : Prop :=
  format = some f ∨ format = none ∧
    (f = "python" ∧ Spec.Ends name ['.', 'r', 'e', 'p', 'r'] ∨ f = "json" ∧ Spec.Ends name ['.', 'j', 's', 'o', 'n'] ∨
      f = "wannier90tb" ∧ Spec.Ends name ['t', 'b', '.', 'd', 'a', 't'] ∨
      f = "wannier90hr" ∧ Spec.Ends name ['h', 'r', '.', 'd', 'a', 't'])

/-- The formats that can be loaded. -/
def Spec.supported : List String := ["python", "json", "wannier90hr", "wannier90tb"]

/-- The format of `AsymTightBindingModel.save`. -/
def Spec.AsymFormat (name : Name) (format : Option String) (f : String) : Prop :=
  format = some f ∨ format = none ∧ f = "json" ∧ Spec.Ends name ['.', 'j', 's', 'o', 'n']

/-- The format of `BandStructureModel.save`. -/
def Spec.BsFormat (name : Name) (format : Option String) (f : String) : Prop :=
  format = some f ∨ format = none ∧
    (f = "python" ∧ Spec.Ends name ['.', 'r', 'e', 'p', 'r'] ∨ f = "json" ∧ Spec.Ends name ['.', 'j', 's', 'o', 'n'] ∨
      f = "wannier90" ∧ Spec.Ends name ['.', 'd', 'a', 't'])

/-- `w'` is `w` except for the content of the file `name`. -/
def Spec.OnlyFile (w w' : World C PO) (name : Name) : Prop :=
  w'.options = w.options ∧ ∀ x, x ≠ name → w'.files x = w.files x

/-! ## Formats -/

theorem asymFormat_iff {name : Name} {format : Option String} {f : String} :
    asymSaveFormat name format = some f ↔ Spec.AsymFormat name format f := by
  unfold Spec.AsymFormat asymSaveFormat
  simp only [ends_iff]
  cases format with
  | some g => simp
  | none =>
    change (if dotJson <:+ name then some "json" else none) = some f ↔ (none = some f ∨ none = none ∧ f = "json" ∧ dotJson <:+ name)
    by_cases h : dotJson <:+ name <;> simp [h, eq_comm]

theorem asymSave_none (L : Lib C PO) (w : World C PO) (t : Tb d n) (name : Name) (format : Option String)
    (h : ¬ Spec.AsymFormat name format "json") : asymSave L w t name format = (w, raise .valueError) := by
  unfold asymSave
  split
  · rfl
  · rename_i f hf
    rw [if_pos]
    rintro rfl
    exact h (asymFormat_iff.1 hf)

/-- The body of `save` for the format "json". -/
theorem asymSave_json (L : Lib C PO) (w : World C PO) (t : Tb d n) (name : Name) (format : Option String)
    (h : Spec.AsymFormat name format "json") :
    asymSave L w t name format = restore w.options
      (jsonSave L (w.setOptions (L.saveOptions w.options)) name (t.H.terms.map Prod.fst) (t.H.terms.map Prod.snd)) := by
  unfold asymSave
  rw [asymFormat_iff.2 h]
  simp only [ne_eq, not_true_eq_false, if_false]

/-- **C114** `AsymTightBindingModel.save` without format and with a name that does not end with ".json", or with a format other
than "json", raises `ValueError` and changes neither a file nor the print options. -/
theorem C114_asym_save_format (L : Lib C PO) (w : World C PO) (t : Tb d n) (name : Name) (format : Option String)
    (h : ¬ Spec.AsymFormat name format "json") :
    asymSave L w t name format = (w, .error (.py .valueError)) :=
  asymSave_none L w t name format h

theorem loadFormat_iff {name : Name} {format : Option String} {f : String} :
    loadFormat name format = some f ↔ Spec.LoadFormat name format f ∧ f ∈ Spec.supported := by
  have hsup : ∀ g, (if g = "python" ∨ g = "json" ∨ g = "wannier90hr" ∨ g = "wannier90tb" then some g else none) = some f ↔
      g = f ∧ f ∈ Spec.supported := by
    intro g
    simp only [Spec.supported, List.mem_cons, List.not_mem_nil, or_false]
    split_ifs with h
    · simp only [Option.some.injEq]
      constructor
      · rintro rfl; exact ⟨rfl, h⟩
      · exact fun h => h.1
    · simp only [reduceCtorEq, false_iff]
      rintro ⟨rfl, h'⟩
      exact h h'
  have hname : nameFormat name format = some f ↔ Spec.LoadFormat name format f := by
    unfold nameFormat Spec.LoadFormat
    simp only [ends_iff]
    cases format with
    | some g => simp
    | none =>
    change (if dotRepr <:+ name then some "python" else if dotJson <:+ name then some "json"
      else if tbDat <:+ name then some "wannier90tb" else if hrDat <:+ name then some "wannier90hr" else none) = some f ↔
      (none = some f ∨ none = none ∧ (f = "python" ∧ dotRepr <:+ name ∨ f = "json" ∧ dotJson <:+ name ∨
        f = "wannier90tb" ∧ tbDat <:+ name ∨ f = "wannier90hr" ∧ hrDat <:+ name))
    have six : ∀ {a : Name}, a.length = 6 → a.drop 1 ≠ dotRepr → dotRepr <:+ name → ¬ a <:+ name := by
      intro a ha hne h1 h2
      exact suffix_disjoint (a := dotRepr) (b := a.drop 1) (by rw [List.length_drop, ha]; rfl) (Ne.symm hne) h1
        ((List.drop_suffix 1 a).trans h2)
    have six' : ∀ {a : Name}, a.length = 6 → a.drop 1 ≠ dotJson → dotJson <:+ name → ¬ a <:+ name := by
      intro a ha hne h1 h2
      exact suffix_disjoint (a := dotJson) (b := a.drop 1) (by rw [List.length_drop, ha]; rfl) (Ne.symm hne) h1
        ((List.drop_suffix 1 a).trans h2)
    by_cases h1 : dotRepr <:+ name
    · have n2 : ¬ dotJson <:+ name := suffix_disjoint (by rfl) (by decide) h1
      have n3 : ¬ tbDat <:+ name := six (by rfl) (by decide) h1
      have n4 : ¬ hrDat <:+ name := six (by rfl) (by decide) h1
      rw [if_pos h1]
      simp [h1, n2, n3, n4, eq_comm]
    rw [if_neg h1]
    by_cases h2 : dotJson <:+ name
    · have n3 : ¬ tbDat <:+ name := six' (by rfl) (by decide) h2
      have n4 : ¬ hrDat <:+ name := six' (by rfl) (by decide) h2
      rw [if_pos h2]
      simp [h1, h2, n3, n4, eq_comm]
    rw [if_neg h2]
    by_cases h3 : tbDat <:+ name
    · have n4 : ¬ hrDat <:+ name := suffix_disjoint (by rfl) (by decide) h3
      rw [if_pos h3]
      simp [h1, h2, h3, n4, eq_comm]
    rw [if_neg h3]
    by_cases h4 : hrDat <:+ name
    · rw [if_pos h4]
      simp [h1, h2, h3, h4, eq_comm]
    · rw [if_neg h4]
      simp [h1, h2, h3, h4]
  rw [← hname]
  unfold loadFormat
  cases hf : nameFormat name format with
  | none => simp
  | some g => simp only [hsup, Option.some.injEq]

theorem loadFormat_none {name : Name} {format : Option String} (h : ∀ f, Spec.LoadFormat name format f → f ∉ Spec.supported) :
    loadFormat name format = none := by
  cases hf : loadFormat name format with
  | none => rfl
  | some f => exact absurd (loadFormat_iff.1 hf).2 (h f (loadFormat_iff.1 hf).1)

/-- **C114** `load` of both classes: without a supported format (given, or of the ending of the name) `ValueError` whatever the
files contain; otherwise the ending only selects the format, a given format overrides it, and a file that cannot be opened
raises `OSError`. -/
theorem C114_load_format (L : Lib C PO) (w : World C PO) (name : Name) (format : Option String) (c x : Bool) :
    ((∀ f, Spec.LoadFormat name format f → f ∉ Spec.supported) →
      asymLoad L w name format = .error (.py .valueError) ∧ bsLoad L w name format c x = .error (.py .valueError)) ∧
    (∀ f, Spec.LoadFormat name format f →
      asymLoad L w name format = asymLoad L w name (some f) ∧ bsLoad L w name format c x = bsLoad L w name (some f) c x) ∧
    (∀ f, Spec.LoadFormat name format f → f ∈ Spec.supported → w.files name = none →
      asymLoad L w name format = .error .os ∧ bsLoad L w name format c x = .error .os) := by
  refine ⟨fun h => ?_, fun f hf => ?_, fun f hf hs hw => ?_⟩
  · unfold asymLoad bsLoad
    rw [loadFormat_none h]
    exact ⟨rfl, rfl⟩
  · have e : loadFormat name format = loadFormat name (some f) := by
      by_cases hs : f ∈ Spec.supported
      · rw [loadFormat_iff.2 ⟨hf, hs⟩, loadFormat_iff.2 ⟨Or.inl rfl, hs⟩]
      · rcases hf with rfl | ⟨-, hf⟩
        · rfl
        · exfalso
          apply hs
          rcases hf with ⟨rfl, -⟩ | ⟨rfl, -⟩ | ⟨rfl, -⟩ | ⟨rfl, -⟩ <;> simp [Spec.supported]
    unfold asymLoad bsLoad
    rw [e]
    exact ⟨rfl, rfl⟩
  · have hr : readFile w name = .error .os := by unfold readFile; rw [hw]
    have hj : jsonLoad L w name = .error .os := by unfold jsonLoad; rw [hr]; rfl
    unfold asymLoad bsLoad
    rw [loadFormat_iff.2 ⟨hf, hs⟩]
    simp only [hr, hj, bind, Except.bind]
    constructor <;> split_ifs <;> rfl

/-! ## What saving changes -/

theorem jsonSave_only (L : Lib C PO) (w : World C PO) (name : Name) (N : List (RVec d)) (H : List (CMat n)) :
    Spec.OnlyFile w (jsonSave L w name N H).1 name := by
  have hw : ∀ c, Spec.OnlyFile w (w.write name c) name := fun c => ⟨rfl, fun x hx => if_neg hx⟩
  unfold jsonSave
  split_ifs
  · split
    · exact hw _
    · exact hw _
  · exact ⟨rfl, fun _ _ => rfl⟩

theorem bsFormat_iff {name : Name} {format : Option String} {f : String} :
    bsSaveFormat name format = some f ↔ Spec.BsFormat name format f := by
  unfold bsSaveFormat
  unfold Spec.BsFormat
  simp only [ends_iff]
  cases format with
  | some g => simp
  | none =>
    change (if dotRepr <:+ name then some "python" else if dotJson <:+ name then some "json"
        else if dotDat <:+ name then some "wannier90" else none) = some f ↔
      (none = some f ∨ none = none ∧ (f = "python" ∧ dotRepr <:+ name ∨ f = "json" ∧ dotJson <:+ name ∨
        f = "wannier90" ∧ dotDat <:+ name))
    have four : ∀ {a : Name}, a.length = 5 → a.drop 1 ≠ dotDat → a <:+ name → ¬ dotDat <:+ name := by
      intro a ha hne h1
      exact suffix_disjoint (by rw [List.length_drop, ha]; rfl) hne ((List.drop_suffix 1 a).trans h1)
    by_cases h1 : dotRepr <:+ name
    · have n2 : ¬ dotJson <:+ name := suffix_disjoint (by rfl) (by decide) h1
      have n3 : ¬ dotDat <:+ name := four (by rfl) (by decide) h1
      simp [h1, n2, n3, eq_comm]
    by_cases h2 : dotJson <:+ name
    · have n3 : ¬ dotDat <:+ name := four (by rfl) (by decide) h2
      simp [h1, h2, n3, eq_comm]
    by_cases h3 : dotDat <:+ name
    · simp [h1, h2, h3, eq_comm]
    · simp [h1, h2, h3]

theorem bsSave_json (L : Lib C PO) (w : World C PO) (b : BS.BSM d n) (t : BS.TBData d) (ht : b.coeff = .tb t) (name : Name)
    (format : Option String) (f : String) (hs : f ∈ ["python", "json", "wannier90"]) (h : Spec.BsFormat name format f) :
    bsSave L w b name format = restore w.options (bsWrite L (w.setOptions (L.saveOptions w.options)) b t name f) := by
  unfold bsSave
  rw [ht]
  simp only
  rw [bsFormat_iff.2 h]
  simp only [List.mem_cons, List.not_mem_nil, or_false] at hs
  simp only [hs, not_true_eq_false, if_false]

theorem bsWrite_only (L : Lib C PO) (w : World C PO) (b : BS.BSM d n) (t : BS.TBData d) (name : Name) (f : String) :
    Spec.OnlyFile w (bsWrite L w b t name f).1 name := by
  have hw : ∀ c, Spec.OnlyFile w (w.write name c) name := fun c => ⟨rfl, fun x hx => if_neg hx⟩
  have h0 : Spec.OnlyFile w w name := ⟨rfl, fun _ _ => rfl⟩
  unfold bsWrite
  split_ifs
  · split
    · exact hw _
    · exact hw _
  · exact h0
  · split
    · exact h0
    · exact h0
  · split
    · exact h0
    · exact jsonSave_only _ _ _ _ _

/-- What both `save` do to the state: in every case only the named file can change.  If the call returns, the print options
are those from before; if it raises, they are those from before or those set for writing. -/
def Spec.Saves (L : Lib C PO) (w : World C PO) (name : Name) (r : World C PO × Except IOErr Unit) : Prop :=
  (∀ x, x ≠ name → r.1.files x = w.files x) ∧ (r.2 = .ok () → r.1.options = w.options) ∧
    (r.1.options = w.options ∨ r.1.options = L.saveOptions w.options)

theorem saves_restore (L : Lib C PO) (w : World C PO) (name : Name) (r : World C PO × Except IOErr Unit)
    (h : Spec.OnlyFile (w.setOptions (L.saveOptions w.options)) r.1 name) : Spec.Saves L w name (restore w.options r) := by
  obtain ⟨h1, h2⟩ := h
  obtain ⟨v, e⟩ := r
  cases e with
  | ok u => exact ⟨h2, fun _ => rfl, Or.inl rfl⟩
  | error e => exact ⟨h2, fun h => by simp [restore] at h, Or.inr h1⟩

/-- **C114** Saving changes no other file, and returns with the print options from before. -/
theorem C114_save_only (L : Lib C PO) (w : World C PO) (t : Tb d n) (b : BS.BSM d n) (name : Name) (format : Option String) :
    Spec.Saves L w name (asymSave L w t name format) ∧ Spec.Saves L w name (bsSave L w b name format) := by
  have h0 : ∀ e, Spec.Saves L w name (w, raise e) := fun e => ⟨fun _ _ => rfl, fun _ => rfl, Or.inl rfl⟩
  constructor
  · by_cases h : Spec.AsymFormat name format "json"
    · rw [asymSave_json L w t name format h]
      exact saves_restore _ _ _ _ (jsonSave_only _ _ _ _ _)
    · rw [asymSave_none L w t name format h]
      exact h0 _
  · unfold bsSave
    split
    · exact h0 _
    · split
      · exact h0 _
      · split_ifs
        · exact saves_restore _ _ _ _ (bsWrite_only _ _ _ _ _ _)
        · exact h0 _

/-- **C114 (defect)** Failures of `AsymTightBindingModel.save` after the checks of the format leave numpy's print options as
they are set for writing: when the file cannot be opened, and for a series without terms, where the file is emptied in
addition. -/
theorem C114_asym_save_failure (L : Lib C PO) (w : World C PO) (t : Tb d n) (name : Name) (format : Option String)
    (h : Spec.AsymFormat name format "json") :
    (L.canWrite name = false →
      asymSave L w t name format = (⟨w.files, L.saveOptions w.options⟩, .error .os)) ∧
    (L.canWrite name = true → t.H.terms = [] →
      asymSave L w t name format =
        (⟨fun x => if x = name then some L.empty else w.files x, L.saveOptions w.options⟩, .error (.py .indexError))) ∧
    (L.canWrite name = true → t.H.terms ≠ [] → (asymSave L w t name format).2 = .ok ()) := by
  rw [asymSave_json L w t name format h]
  unfold jsonSave
  refine ⟨fun hw => ?_, fun hw ht => ?_, fun hw ht => ?_⟩
  · rw [if_neg (by simp [hw])]
    rfl
  · rw [if_pos hw, ht]
    rfl
  · rw [if_pos hw]
    unfold Fmt.save
    rw [if_neg (by simp [ht])]
    rfl

/-! ## AsymTightBindingModel: the round trip -/

/-- **C114** A model saved as JSON and loaded again has the same Hamiltonian at every k, and the unit matrix as overlap;
no other file is changed and the print options are as before. -/
theorem C114_asym_json (L : Lib C PO) (hL : Spec.Contract L) (w : World C PO) (N : List (RVec d)) (Hs : List (CMat n))
    (H S : Series d n) (hH : mkSeries N Hs = .ok H) (hn : 0 < n) (hN : ∀ r ∈ N.tail, r ≠ 0)
    (ht : ∀ M ∈ Hs, Spec.NoTiny M) (name : Name) (format : Option String) (hf : Spec.AsymFormat name format "json")
    (hw : L.canWrite name = true) :
    ∃ w' t', asymSave L w ⟨H, S⟩ name format = (w', .ok ()) ∧ Spec.OnlyFile w w' name ∧
      asymLoad L w' name format = .ok ⟨d, n, t'⟩ ∧ ∀ k, t'.H.f k = H.f k ∧ t'.S.f k = .ok 1 := by
  cases N with
  | nil => simp [mkSeries] at hH
  | cons r0 N =>
  unfold mkSeries at hH
  simp only at hH
  by_cases hr0 : vnorm r0 ≠ 0
  · rw [if_pos hr0] at hH; simp at hH
  rw [if_neg hr0] at hH
  rw [not_not, vnorm_eq_zero] at hr0
  subst hr0
  by_cases hlen : ((0 : RVec d) :: N).length ≠ Hs.length
  · rw [if_pos hlen] at hH; simp at hH
  rw [if_neg hlen] at hH
  rw [not_not] at hlen
  have hH := Except.ok.inj hH
  cases Hs with
  | nil => simp at hlen
  | cons H0 Hs =>
  have hlen : N.length = Hs.length := by simpa using hlen
  obtain ⟨c, N', Hs', h1, h2, h3, h4⟩ := json_file L hL (w.setOptions (L.saveOptions w.options)) name hw N H0 Hs hlen hn hN ht
  refine ⟨w.write name c, ⟨⟨(0, H0) :: N'.zip Hs'⟩, ⟨[(0, 1)]⟩⟩, ?_, ⟨rfl, fun x hx => if_neg hx⟩, ?_, fun k => ⟨?_, unit_f k⟩⟩
  · rw [asymSave_json L w _ name format hf]
    have e1 : H.terms.map Prod.fst = 0 :: N := by
      rw [← hH, List.zip_cons_cons, List.map_cons, List.map_fst_zip hlen.le]
    have e2 : H.terms.map Prod.snd = H0 :: Hs := by
      rw [← hH, List.zip_cons_cons, List.map_cons, List.map_snd_zip hlen.ge]
    simp only [e1, e2, h1]
    rfl
  · have hl : loadFormat name format = some "json" := by
      refine loadFormat_iff.2 ⟨?_, by simp [Spec.supported]⟩
      rcases hf with hf | ⟨hf, -, he⟩
      · exact Or.inl hf
      · exact Or.inr ⟨hf, Or.inr (Or.inl ⟨rfl, he⟩)⟩
    unfold asymLoad
    rw [hl]
    have e : ¬ "json" = "python" := by decide
    simp only [if_neg e, if_true, h2 (w.write name c) (if_pos rfl), bind, Except.bind]
    rw [asymOf_eq N' H0 Hs' h3]
    rfl
  · rw [← hH]
    exact Fmt.hsum_perm _ _ _ _ h4

/-- **C114 (defect)** The overlap is not saved, by `C114_asym_json` every model comes back with the unit matrix as overlap.  For
instance the model with `H = 2`, `S = 2` has the band energy 1 before, and 2 after loading. -/
theorem C114_overlap_lost (L : Lib C PO) (hL : Spec.Contract L) (w : World C PO) (name : Name) (hw : L.canWrite name = true) :
    ∃ (t t' : Tb d 1) (w' : World C PO), asymSave L w t name (some "json") = (w', .ok ()) ∧
      asymLoad L w' name (some "json") = .ok ⟨d, 1, t'⟩ ∧
      ∀ k, ∃ H S H' S', t.H.f k = .ok H ∧ t.S.f k = .ok S ∧ t'.H.f k = .ok H' ∧ t'.S.f k = .ok S' ∧
        ∀ (v : Fin 1 → ℂ) (E : ℂ), v ≠ 0 → (H *ᵥ v = E • (S *ᵥ v) ↔ E = 1) ∧ (H' *ᵥ v = E • (S' *ᵥ v) ↔ E = 2) := by
  have hs : mkSeries [(0 : RVec d)] [(2 : CMat 1)] = .ok ⟨[(0, 2)]⟩ := by
    simp [mkSeries, vnorm]
  have hf : ∀ k, (⟨[(0, 2)]⟩ : Series d 1).f k = .ok 2 := by
    intro k; simp [Series.f, hsum, fi]
  obtain ⟨w', t', h1, -, h3, h4⟩ := C114_asym_json L hL w [(0 : RVec d)] [(2 : CMat 1)] ⟨[(0, 2)]⟩ ⟨[(0, 2)]⟩ hs one_pos
    (by simp) (by
      intro M hM i j
      rw [List.mem_singleton.1 hM, Subsingleton.elim i j]
      have e : (2 : CMat 1) j j = 2 := by
        rw [show (2 : CMat 1) = (2 : ℂ) • (1 : CMat 1) by rw [two_smul]; norm_num, Matrix.smul_apply, Matrix.one_apply_eq]; simp
      rw [e]
      refine ⟨Or.inr ?_, Or.inl rfl⟩
      norm_num) name (some "json") (Or.inl rfl) hw
  refine ⟨_, t', w', h1, h3, fun k => ⟨2, 2, 2, 1, hf k, hf k, ?_, (h4 k).2, fun v E hv => ?_⟩⟩
  · rw [(h4 k).1, hf k]
  · have e : ∀ v : Fin 1 → ℂ, (2 : CMat 1) *ᵥ v = (2 : ℂ) • v := by
      intro v
      rw [show (2 : CMat 1) = (2 : ℂ) • (1 : CMat 1) by rw [two_smul]; norm_num, Matrix.smul_mulVec, Matrix.one_mulVec]
    rw [e, Matrix.one_mulVec, smul_smul]
    have key : ∀ a b : ℂ, a • v = b • v ↔ a = b := fun a b => ⟨fun h => smul_left_injective ℂ hv h, fun h => by rw [h]⟩
    rw [key, key]
    refine ⟨⟨fun h => ?_, fun h => by rw [h, one_mul]⟩, eq_comm⟩
    have h2 : (2 : ℂ) ≠ 0 := two_ne_zero
    have : E * 2 = 1 * 2 := by rw [one_mul]; exact h.symm
    exact mul_right_cancel₀ h2 this

/-! ## BandStructureModel: formats and failures -/

/-- **C114** `BandStructureModel.save`: a model with own coefficient functions, a name with an unknown ending without a format,
and an unknown format raise `ValueError` and change nothing.
Defect: the documented format "wannier90" (the one of names ending with ".dat") always raises, for models with coefficients
that can be written `NotImplementedError`; no file is written and the print options stay changed. -/
theorem C114_bs_save_format (L : Lib C PO) (w : World C PO) (b : BS.BSM d n) (name : Name) (format : Option String) :
    ((∀ t, b.coeff ≠ .tb t) → bsSave L w b name format = (w, .error (.py .valueError))) ∧
    ((∀ f, Spec.BsFormat name format f → f ∉ ["python", "json", "wannier90"]) →
      bsSave L w b name format = (w, .error (.py .valueError))) ∧
    (∀ t, b.coeff = .tb t → Spec.BsFormat name format "wannier90" →
      (∃ e, bsSave L w b name format = (⟨w.files, L.saveOptions w.options⟩, .error e)) ∧
      ∀ H, b.paramsComplex = .ok H →
        bsSave L w b name format = (⟨w.files, L.saveOptions w.options⟩, .error (.py .notImplemented))) := by
  refine ⟨fun h => ?_, fun h => ?_, fun t ht hf => ?_⟩
  · unfold bsSave
    cases hc : b.coeff with
    | custom => rfl
    | tb t => exact absurd hc (h t)
  · unfold bsSave
    split
    · rfl
    · split
      · rfl
      · rename_i f hf
        have := h f (bsFormat_iff.1 hf)
        simp only [List.mem_cons, List.not_mem_nil, or_false] at this
        rw [if_pos this]
        rfl
  · have e : ¬ "wannier90" = "python" := by decide
    rw [bsSave_json L w b t ht name format "wannier90" (by simp) hf]
    unfold bsWrite
    rw [if_neg e]
    cases hp : b.paramsComplex with
    | error e => exact ⟨⟨_, rfl⟩, fun H hH => by simp at hH⟩
    | ok G => exact ⟨⟨_, rfl⟩, fun H hH => rfl⟩

/-! ## BandStructureModel: the round trip -/

/-- Without symmetry, `H_0 + Σ_j (e^{2πi k·r_j} H_j + h.c.)`. -/
noncomputable def Spec.plain (r : Fin m → RVec d) (H0 : CMat n) (H : Fin m → CMat n) (k : RVec d) : CMat n :=
  H0 + ∑ j, (BS.Spec.phase k (r j) • H j + (BS.Spec.phase k (r j) • H j)ᴴ)

theorem list_ofFn {A : Type} (l : List A) {m : ℕ} (h : l.length = m) : ∃ r : Fin m → A, l = List.ofFn r := by
  subst h
  exact ⟨fun i => l[i], (List.ofFn_getElem (xs := l)).symm⟩

theorem plain_perm (k : RVec d) (H0 : CMat n) {m' : ℕ} (r : Fin m → RVec d) (H : Fin m → CMat n) (r' : Fin m' → RVec d)
    (H' : Fin m' → CMat n) (h : ((List.ofFn r').zip (List.ofFn H')).Perm ((List.ofFn r).zip (List.ofFn H))) :
    Spec.plain r' H0 H' k = Spec.plain r H0 H k := by
  unfold Spec.plain
  rw [ofFn_zip_sum r' H' fun a b => BS.Spec.phase k a • b + (BS.Spec.phase k a • b)ᴴ,
    ofFn_zip_sum r H fun a b => BS.Spec.phase k a • b + (BS.Spec.phase k a • b)ᴴ]
  rw [(h.map _).sum_eq]

/-- The coefficients of a model set by `set_params_complex`. -/
theorem set_params (S : List (Matrix (Fin d) (Fin d) ℝ)) (inversion c x : Bool) (r0 : RVec d) (r : Fin m → RVec d)
    (H0 : CMat n) (H : Fin m → CMat n) (b b' : BS.BSM d n)
    (hb : BS.init ⟨S, inversion, r0 :: List.ofFn r, c, x⟩ n = .ok b)
    (hset : b.setParamsComplex (H0 :: List.ofFn H) = (b', .ok ())) :
    b'.paramsComplex = .ok (BS.Spec.first x H0 :: List.ofFn fun j => BS.Spec.other x inversion (H j)) := by
  obtain ⟨a, a', a'', G, h1, h2, h3, h4, -⟩ := BS.C30_roundtrip S inversion c x r0 r H0 H
  have e1 : a = b := Except.ok.inj (h1.symm.trans hb)
  subst e1
  have e2 : a' = b' := congrArg Prod.fst (h2.symm.trans hset)
  rw [← e2, h3, h4]

theorem first_herm (x : Bool) (H0 : CMat n) (h0 : H0ᴴ = H0) : BS.Spec.first x H0 = H0 := by
  cases x
  · change BS.Spec.hermPart H0 = H0
    rw [BS.Spec.hermPart, h0]; module
  · rfl

/-- **C114** A default tight binding model saved as JSON (for any options and symmetry) and loaded with any options.  The loaded
model has no symmetry: in three dimensions its Hamiltonian is the plain Fourier series of the saved coefficients, which is
that of the saved model if that had no symmetry.
Defect: `load` uses the three-dimensional `Symmetry.none()`, so in any other dimension `f` of the loaded model raises
`ValueError` at every k, as soon as there is a second neighbour (with one neighbour it is the first coefficient). -/
theorem C114_bs_json (L : Lib C PO) (hL : Spec.Contract L) (w : World C PO) (S : List (Matrix (Fin d) (Fin d) ℝ))
    (inversion c x c' x' : Bool) (r : Fin m → RVec d) (H0 : CMat n) (H : Fin m → CMat n) (b b' : BS.BSM d n)
    (hb : BS.init ⟨S, inversion, 0 :: List.ofFn r, c, x⟩ n = .ok b)
    (hset : b.setParamsComplex (H0 :: List.ofFn H) = (b', .ok ())) (h0 : H0ᴴ = H0) (hn : 0 < n) (hr : ∀ j, r j ≠ 0)
    (ht0 : Spec.NoTiny H0) (ht : ∀ j, Spec.NoTiny (BS.Spec.other x inversion (H j)))
    (name : Name) (format : Option String) (hf : Spec.BsFormat name format "json") (hw : L.canWrite name = true) :
    ∃ w' N' P0 Ps, bsSave L w b' name format = (w', .ok ()) ∧ Spec.OnlyFile w w' name ∧
      bsLoad L w' name format c' x' = .ok ⟨d, 3, n, [1], false, N', c', x', P0, Ps⟩ ∧
      (d = 3 → ∀ k, BsObj.f ⟨d, 3, n, [1], false, N', c', x', P0, Ps⟩ k =
        .ok (Spec.plain r H0 (fun j => BS.Spec.other x inversion (H j)) k)) ∧
      (S = [1] → inversion = false → ∀ k, Spec.plain r H0 (fun j => BS.Spec.other x inversion (H j)) k = b'.f k) ∧
      (d ≠ 3 → 0 < m → ∀ k, BsObj.f ⟨d, 3, n, [1], false, N', c', x', P0, Ps⟩ k = .error .valueError) ∧
      (d ≠ 3 → m = 0 → ∀ k, BsObj.f ⟨d, 3, n, [1], false, N', c', x', P0, Ps⟩ k = .ok H0) := by
  have hcoeff : b'.coeff = .tb ⟨S, inversion, 0 :: List.ofFn r, c, x⟩ :=
    (bsOf_eq d S S inversion _ _ c x (by simp) b b' hb hset).2.1
  have hpc := set_params S inversion c x 0 r H0 H b b' hb hset
  rw [first_herm x H0 h0] at hpc
  obtain ⟨file, N', Hs', h1, h2, h3, h4⟩ := json_file L hL (w.setOptions (L.saveOptions w.options)) name hw (List.ofFn r) H0
    (List.ofFn fun j => BS.Spec.other x inversion (H j)) (by simp) hn
    (by intro a ha; obtain ⟨j, rfl⟩ := (List.mem_ofFn' _ _).1 ha; exact hr j)
    (by
      intro M hM
      rcases List.mem_cons.1 hM with rfl | hM
      · exact ht0
      · obtain ⟨j, rfl⟩ := (List.mem_ofFn' _ _).1 hM; exact ht j)
  have hm : N'.length = m := by
    have := h4.length_eq
    rw [List.length_zip, List.length_zip, List.length_ofFn, List.length_ofFn, ← h3] at this
    simpa using this
  obtain ⟨r', rfl⟩ := list_ofFn N' hm
  obtain ⟨H', rfl⟩ := list_ofFn Hs' (h3.symm.trans hm)
  obtain ⟨a, a', g1, g2, -, g4⟩ := BS.C30_none c' x' 0 r' H0 H' h0
  obtain ⟨k1, k2, k3⟩ := bsOf_eq 3 [1] [1] false _ _ c' x' (by simp) a a' g1 g2
  refine ⟨w.write name file, 0 :: List.ofFn r', a'.P0, a'.Ps, ?_, ⟨rfl, fun x hx => if_neg hx⟩, ?_, ?_, ?_, ?_, ?_⟩
  · rw [bsSave_json L w b' _ hcoeff name format "json" (by simp) hf]
    have e1 : ¬ "json" = "python" := by decide
    have e2 : ¬ "json" = "wannier90" := by decide
    unfold bsWrite
    rw [if_neg e1, hpc]
    simp only
    rw [if_neg e2, h1]
    rfl
  · have hl : loadFormat name format = some "json" := by
      refine loadFormat_iff.2 ⟨?_, by simp [Spec.supported]⟩
      rcases hf with hf | ⟨hf, h | h | h⟩
      · exact Or.inl hf
      · exact absurd h.1 (by decide)
      · exact Or.inr ⟨hf, Or.inr (Or.inl ⟨rfl, h.2⟩)⟩
      · exact absurd h.1 (by decide)
    unfold bsLoad
    rw [hl]
    have e : ¬ "json" = "python" := by decide
    simp only [if_neg e, if_true, h2 (w.write name file) (if_pos rfl), bind, Except.bind]
    rw [k1]
    rfl
  · rintro rfl k
    rw [k3 k, g4 k]
    exact congrArg _ (plain_perm k H0 r _ r' H' h4)
  · rintro rfl rfl k
    obtain ⟨q, q', e1, e2, -, e4⟩ := BS.C30_none c x 0 r H0 H h0
    have : q = b := Except.ok.inj (e1.symm.trans hb)
    subst this
    have e5 : q' = b' := congrArg Prod.fst (e2.symm.trans hset)
    rw [← e5, e4]
    have ho : ∀ j, BS.Spec.other x false (H j) = H j := fun j => by simp [BS.Spec.other]
    simp only [Spec.plain, ho]
  · intro hd hm0 k
    unfold BsObj.f
    simp only
    rw [dif_neg (Ne.symm hd), if_neg]
    obtain ⟨-, -, -, -, e4⟩ := BS.setParams_eq [1] false c' x' 0 r' H0 H' a (by
      unfold BS.init at g1
      split_ifs at g1
      rw [← Except.ok.inj g1]
      rfl)
    rw [g2] at e4
    simp only at e4
    rw [e4]
    cases x'
    · simp; omega
    · simp; omega
  · intro hd hm0 k
    subst hm0
    obtain ⟨-, -, -, e3, e4⟩ := BS.setParams_eq [1] false c' x' 0 r' H0 H' a (by
      unfold BS.init at g1
      split_ifs at g1
      rw [← Except.ok.inj g1]
      rfl)
    rw [g2] at e3 e4
    simp only at e3 e4
    unfold BsObj.f
    simp only
    rw [dif_neg (Ne.symm hd), if_pos (by rw [e4]; cases x' <;> simp), e3, first_herm x' H0 h0]
    cases c' <;> simp

/-- **C114** `BandStructureModel.load` of a file in which no matrices are found raises `IndexError`. -/
theorem C114_bs_no_matrices (L : Lib C PO) (w : World C PO) (name : Name) (format : Option String) (c x : Bool) (file : C)
    (hfile : w.files name = some file) :
    (∀ f, Spec.LoadFormat name format f → (f = "wannier90hr" ∨ f = "wannier90tb") →
      (∃ n N, L.wannier (f == "wannier90hr") file = .ok ⟨n, (N, [])⟩) → bsLoad L w name format c x = .error (.py .indexError)) ∧
    (Spec.LoadFormat name format "python" → ∀ v, L.eval file = .ok v → v.H = [] → (∃ σ, mkSym v.S v.inversion = .ok σ) →
      bsLoad L w name format c x = .error (.py .indexError)) := by
  constructor
  · rintro f hf hw ⟨n, N, hN⟩
    have hl : loadFormat name format = some f := loadFormat_iff.2 ⟨hf, by rcases hw with rfl | rfl <;> simp [Spec.supported]⟩
    have e1 : f ≠ "python" := by rcases hw with rfl | rfl <;> decide
    have e2 : f ≠ "json" := by rcases hw with rfl | rfl <;> decide
    unfold bsLoad
    rw [hl]
    simp only [if_neg e1, if_neg e2, readFile, hfile, bind, Except.bind, hN, lift]
    rfl
  · rintro hf v hv hH ⟨σ, hσ⟩
    have hl : loadFormat name format = some "python" := loadFormat_iff.2 ⟨hf, by simp [Spec.supported]⟩
    unfold bsLoad
    rw [hl]
    simp only [if_true, readFile, hfile, bind, Except.bind, hv, lift, hσ]
    unfold bsOf
    rw [hH]
    rfl

/-- **C114 (defect)** Saving as JSON loses the symmetry: a model in three dimensions with a rotation, the neighbours `0` and
`(1, 0, 0)` and all coefficients 1 has the value 5 at `k = 0`; after saving and loading without any exception it is 3. -/
theorem C114_bs_json_symmetry (L : Lib C PO) (hL : Spec.Contract L) (w : World C PO) (name : Name)
    (hw : L.canWrite name = true) (c' x' : Bool) :
    ∃ (σ : Sym ℝ 3) (b b' : BS.BSM 3 1) (w' : World C PO) (N' : List (RVec 3)) (P0 : CMat 1) (Ps : List (CMat 1)),
      mkSym σ.S σ.inversion = .ok σ ∧ σ.S.length = 2 ∧
      BS.init ⟨σ.S, σ.inversion, [0, ![1, 0, 0]], false, true⟩ 1 = .ok b ∧ b.setParamsComplex [1, 1] = (b', .ok ()) ∧
      bsSave L w b' name (some "json") = (w', .ok ()) ∧
      bsLoad L w' name (some "json") c' x' = .ok ⟨3, 3, 1, [1], false, N', c', x', P0, Ps⟩ ∧
      b'.f 0 0 0 = 5 ∧ ∃ M, BsObj.f ⟨3, 3, 1, [1], false, N', c', x', P0, Ps⟩ 0 = .ok M ∧ M 0 0 = 3 := by
  set R : Matrix (Fin 3) (Fin 3) ℝ := Matrix.diagonal ![-1, -1, 1] with hR
  have hdet : R.det = 1 := by rw [hR, Matrix.det_diagonal, Fin.prod_univ_three]; simp
  have hsym : mkSym [1, R] false = .ok ⟨[1, R], false⟩ := by
    unfold mkSym
    simp only
    rw [if_neg (by simp), if_neg (by simp [hdet]), if_neg, if_neg (by simp)]
    unfold pcZero
    rw [List.all_eq_true]
    intro h
    have := h 1 (by simp)
    rw [List.contains_iff_mem] at this
    simp only [List.map_cons, List.map_nil, List.mem_cons, List.not_mem_nil, or_false] at this
    rcases this with h | h
    · have := congrFun (congrFun h 0) 0
      simp at this
      linarith
    · have := congrFun (congrFun h 2) 2
      simp [hR] at this
      linarith
  obtain ⟨b, b', h1, h2, h3⟩ := BS.C30_f [1, R] false false true 0 (fun _ : Fin 1 => ![1, 0, 0]) (1 : CMat 1) (fun _ => 1)
  have hone : Spec.NoTiny (1 : CMat 1) := by
    intro i j
    rw [Subsingleton.elim i j, Matrix.one_apply_eq]
    exact ⟨Or.inr (by norm_num), Or.inl rfl⟩
  have ho : BS.Spec.other true false (1 : CMat 1) = 1 := by simp [BS.Spec.other]
  obtain ⟨w', N', P0, Ps, g1, -, g3, g4, -⟩ := C114_bs_json L hL w [1, R] false false true c' x' (fun _ : Fin 1 => ![1, 0, 0]) 1
    (fun _ => 1) b b' h1 h2 (by simp) one_pos
    (by intro _ h; have := congrFun h 0; simp at this) hone (by intro j; rw [ho]; exact hone) name (some "json") (Or.inl rfl) hw
  refine ⟨⟨[1, R], false⟩, b, b', w', N', P0, Ps, hsym, rfl, h1, h2, g1, g3, ?_, _, g4 rfl 0, ?_⟩
  · rw [h3]
    simp [BS.Spec.ham, BS.Spec.first, BS.Spec.other, BS.Spec.phase]
    norm_num
  · simp [Spec.plain, BS.Spec.other, BS.Spec.phase]
    norm_num

/-- **C114** A default tight binding model saved in the format "python" and loaded by `BandStructureModel.load` is the model of
`C72_python`, with its symmetry and the options `cos_reduced=True, exp=False`.
`AsymTightBindingModel.load` raises for every such file of a model with symmetry (`ValueError`, unless completing the
neighbours raises); without symmetry it returns a model with the same Hamiltonian and the unit matrix as overlap. -/
theorem C114_python (L : Lib C PO) (hL : Spec.Contract L) (w : World C PO) (σ : Sym ℝ d)
    (hσ : ∃ S inv, mkSym S inv = .ok σ) (c x c' x' : Bool) (r0 : RVec d) (r : Fin m → RVec d) (H0 : CMat n) (H : Fin m → CMat n)
    (b b' : BS.BSM d n) (hb : BS.init ⟨σ.S, σ.inversion, r0 :: List.ofFn r, c, x⟩ n = .ok b)
    (hset : b.setParamsComplex (H0 :: List.ofFn H) = (b', .ok ()))
    (hsize : (m + 1) * (n * n) ≤ 100000 ∧ (m + 1) * d ≤ 100000 ∧ σ.S.length * (d * d) ≤ 100000)
    (name : Name) (format : Option String) (hf : Spec.BsFormat name format "python") (hw : L.canWrite name = true) :
    ∃ w' b'', bsSave L w b' name format = (w', .ok ()) ∧ Spec.OnlyFile w w' name ∧
      b'.saveLoadPython = .ok b'' ∧
      bsLoad L w' name format c' x' =
        .ok ⟨d, d, n, σ.S, σ.inversion, r0 :: List.ofFn r, true, false, b''.P0, b''.Ps⟩ ∧
      (∀ k, BsObj.f ⟨d, d, n, σ.S, σ.inversion, r0 :: List.ofFn r, true, false, b''.P0, b''.Ps⟩ k = .ok (b''.f k)) ∧
      (1 < σ.len → ∃ e, asymLoad L w' name format = .error (.py e) ∧
        ((∀ v, L.complete v = .ok ()) → e = .valueError)) ∧
      (σ.S = [1] → σ.inversion = false → r0 = 0 → H0ᴴ = H0 → ∃ t, asymLoad L w' name format = .ok ⟨d, n, t⟩ ∧
        ∀ k, t.H.f k = .ok (b'.f k) ∧ t.S.f k = .ok 1) := by
  have hfix : mkSym σ.S σ.inversion = .ok σ := Sym.Constructed.fix hσ
  have hcoeff : b'.coeff = .tb ⟨σ.S, σ.inversion, r0 :: List.ofFn r, c, x⟩ :=
    (bsOf_eq d σ.S σ.S σ.inversion _ _ c x (by simp) b b' hb hset).2.1
  have hpc := set_params σ.S σ.inversion c x r0 r H0 H b b' hb hset
  obtain ⟨G0, hG0⟩ : ∃ G0, G0 = BS.Spec.first x H0 := ⟨_, rfl⟩
  obtain ⟨G, hG⟩ : ∃ G, G = fun j => BS.Spec.other x σ.inversion (H j) := ⟨_, rfl⟩
  rw [← hG0, ← hG] at hpc
  obtain ⟨a, a', g1, g2, g3⟩ := BS.C30_f σ.S σ.inversion true false r0 r G0 G
  obtain ⟨k1, k2, k3⟩ := bsOf_eq d σ.S σ.S σ.inversion _ _ true false (by simp) a a' g1 g2
  have hsl : b'.saveLoadPython = .ok a' := by
    have g1' : BS.init { BS.TBData.mk σ.S σ.inversion (r0 :: List.ofFn r) c x with cosReduced := true, exp := false } n = .ok a := g1
    simp only [BS.BSM.saveLoadPython, hpc, hcoeff, bind, Except.bind, g1', g2, pure, Except.pure]
  obtain ⟨v, hv⟩ : ∃ v : PyData, v = ⟨n, d, d, G0 :: List.ofFn G, r0 :: List.ofFn r, σ.S, σ.inversion⟩ := ⟨_, rfl⟩
  obtain ⟨file, hfile⟩ : ∃ file, file = L.repr (L.saveOptions w.options) v := ⟨_, rfl⟩
  have heval : L.eval file = .ok v := by
    rw [hfile]
    refine hL.eval _ _ ?_ ?_ ?_
    · rw [hv]; simpa using hsize.1
    · rw [hv]; simpa using hsize.2.1
    · rw [hv]; exact hsize.2.2
  have hl : loadFormat name format = some "python" := by
    refine loadFormat_iff.2 ⟨?_, by simp [Spec.supported]⟩
    rcases hf with hf | ⟨hf, h | h | h⟩
    · exact Or.inl hf
    · exact Or.inr ⟨hf, Or.inl ⟨rfl, h.2⟩⟩
    · exact absurd h.1 (by decide)
    · exact absurd h.1 (by decide)
  have hread : readFile (w.write name file) name = .ok file := by
    simp [readFile, World.write]
  refine ⟨w.write name file, a', ?_, ⟨rfl, fun x hx => if_neg hx⟩, hsl, ?_, k3, ?_, ?_⟩
  · rw [bsSave_json L w b' _ hcoeff name format "python" (by simp) hf]
    unfold bsWrite
    rw [if_pos rfl, if_pos hw, hpc]
    simp only
    rw [hfile, hv]
    rfl
  · unfold bsLoad
    rw [hl]
    simp only [if_true, hread, heval, hv, hfix, lift, bind, Except.bind, k1]
  · intro hlen
    unfold asymLoad
    rw [hl]
    simp only [if_true, hread, heval, hv, hfix, lift, bind, Except.bind, if_pos hlen]
    cases hc : L.complete ⟨n, d, d, G0 :: List.ofFn G, r0 :: List.ofFn r, σ.S, σ.inversion⟩ with
    | ok u => exact ⟨_, rfl, fun _ => rfl⟩
    | error e => exact ⟨_, rfl, fun h => by rw [h] at hc; simp at hc⟩
  · intro hS hI hr0 h0
    subst hr0
    have hlen : ¬ 1 < σ.len := by simp [Sym.len, hS, hI]
    have eG0 : G0 = H0 := by rw [hG0, first_herm x H0 h0]
    have eG : G = H := by
      rw [hG, hI]; funext j; simp [BS.Spec.other]
    refine ⟨⟨⟨(0, H0) :: (List.ofFn r).zip (List.ofFn H)⟩, ⟨[(0, 1)]⟩⟩, ?_, fun k => ⟨?_, unit_f k⟩⟩
    · unfold asymLoad
      rw [hl]
      simp only [if_true, hread, heval, hv, hfix, lift, bind, Except.bind, if_neg hlen]
      rw [asymOf_eq _ _ _ (by simp), eG0, eG]
    · rw [hsum_ham k H0 r H _ (List.Perm.refl _)]
      obtain ⟨q, q', e1, e2, -, e4⟩ := BS.C30_none c x 0 r H0 H h0
      rw [hS, hI] at hb
      have : q = b := Except.ok.inj (e1.symm.trans hb)
      subst this
      have e5 : q' = b' := congrArg Prod.fst (e2.symm.trans hset)
      rw [← e5, e4]

/-- **C114** Files of Wannier90: what the reader returns becomes the model, in both classes with the Hamiltonian
`H_0 + Σ_j (e^{2πi k·r_j} H_j + h.c.)` and without overlap; exceptions of the reader are passed on, and
`AsymTightBindingModel.load` raises `AssertionError` if the first neighbour is not zero. -/
theorem C114_wannier (L : Lib C PO) (w : World C PO) (name : Name) (format : Option String) (hr : Bool) (c x : Bool)
    (hf : Spec.LoadFormat name format (if hr then "wannier90hr" else "wannier90tb")) (file : C) (hfile : w.files name = some file) :
    (∀ e, L.wannier hr file = .error e →
      asymLoad L w name format = .error (.py e) ∧ bsLoad L w name format c x = .error (.py e)) ∧
    (∀ n r0 N H, L.wannier hr file = .ok ⟨n, r0 :: N, H⟩ → r0 ≠ 0 → asymLoad L w name format = .error (.py .assertionError)) ∧
    (∀ n m (r : Fin m → RVec 3) (H0 : CMat n) (H : Fin m → CMat n),
      L.wannier hr file = .ok ⟨n, 0 :: List.ofFn r, H0 :: List.ofFn H⟩ → H0ᴴ = H0 →
      (∃ t, asymLoad L w name format = .ok ⟨3, n, t⟩ ∧ ∀ k, t.H.f k = .ok (Spec.plain r H0 H k) ∧ t.S.f k = .ok 1) ∧
      ∃ P0 Ps, bsLoad L w name format c x = .ok ⟨3, 3, n, [1], false, 0 :: List.ofFn r, c, x, P0, Ps⟩ ∧
        ∀ k, BsObj.f ⟨3, 3, n, [1], false, 0 :: List.ofFn r, c, x, P0, Ps⟩ k = .ok (Spec.plain r H0 H k)) := by
  have hread : readFile w name = .ok file := by simp [readFile, hfile]
  obtain ⟨f, hfe⟩ : ∃ f, f = if hr then "wannier90hr" else "wannier90tb" := ⟨_, rfl⟩
  rw [← hfe] at hf
  have hl : loadFormat name format = some f := by
    refine loadFormat_iff.2 ⟨hf, ?_⟩
    rw [hfe]
    cases hr <;> simp [Spec.supported]
  have n1 : ¬ f = "python" := by rw [hfe]; cases hr <;> decide
  have n2 : ¬ f = "json" := by rw [hfe]; cases hr <;> decide
  have n3 : (f == "wannier90hr") = hr := by rw [hfe]; cases hr <;> decide
  have ha : asymLoad L w name format = (lift (L.wannier hr file)).bind fun r => lift (asymOf r.2.1 r.2.2) := by
    unfold asymLoad
    rw [hl]
    simp only [if_neg n1, if_neg n2, n3, hread, bind]
    rfl
  have hbs : bsLoad L w name format c x = (lift (L.wannier hr file)).bind fun r => lift (bsOf 3 [1] false r.2.1 r.2.2 c x) := by
    unfold bsLoad
    rw [hl]
    simp only [if_neg n1, if_neg n2, n3, hread, bind]
    rfl
  refine ⟨fun e he => ?_, fun n r0 N H he h0 => ?_, fun n m r H0 H he h0 => ?_⟩
  · rw [ha, hbs, he]
    exact ⟨rfl, rfl⟩
  · rw [ha, he]
    have : mkSeries (r0 :: N) H = .error .assertionError := by
      unfold mkSeries
      simp only
      rw [if_pos (by rw [ne_eq, vnorm_eq_zero]; exact h0)]
    simp only [lift, Except.bind, asymOf, this, bind]
  · rw [ha, hbs, he]
    simp only [lift, Except.bind]
    constructor
    · rw [asymOf_eq _ _ _ (by simp)]
      refine ⟨_, rfl, fun k => ⟨?_, unit_f k⟩⟩
      exact hsum_ham k H0 r H _ (List.Perm.refl _)
    · obtain ⟨a, a', g1, g2, -, g4⟩ := BS.C30_none c x 0 r H0 H h0
      obtain ⟨k1, k2, k3⟩ := bsOf_eq 3 [1] [1] false _ _ c x (by simp) a a' g1 g2
      rw [k1]
      refine ⟨_, _, rfl, fun k => ?_⟩
      rw [k3, g4]
      rfl

/-! ## Examples -/

/-- A file system that stores the written values. -/
inductive ExFile
  | empty
  | json (j : Fmt.Json ℝ)
  | py (v : PyData)

open Classical in
/-- Routines with print options 0, 1, …; `save` uses option 0; long arrays are abbreviated. -/
noncomputable def exLib : Lib ExFile ℕ where
  canWrite name := decide (name ≠ [])
  empty := .empty
  saveOptions _ := 0
  dump := .json
  parse
    | .json j => .ok j
    | _ => .error .valueError
  repr o v := if o = 0 ∧ v.H.length * (v.n * v.n) ≤ 100000 then .py v else .empty
  eval
    | .py v => .ok v
    | _ => .error .valueError
  sort := Fmt.exSortJ
  wannier _ _ := .ok ⟨1, [0, 1], [2, 1]⟩
  complete _ := .ok ()

theorem exLib_contract : Spec.Contract exLib where
  json _ := rfl
  sort := Fmt.exSortJ_isSort
  eval o v h _ _ := by
    change (match (if (0 : ℕ) = 0 ∧ v.H.length * (v.n * v.n) ≤ 100000 then ExFile.py v else .empty) with
      | .py v => Except.ok v
      | _ => Except.error Err.valueError) = .ok v
    rw [if_pos ⟨rfl, h⟩]

/-- The name "a.json". -/
def exName : Name := ['a', '.', 'j', 's', 'o', 'n']

theorem exName_json : Spec.Ends exName ['.', 'j', 's', 'o', 'n'] := ⟨['a'], rfl⟩

/-- `C114_asym_save_format`. -/
example (w : World ExFile ℕ) (t : Tb 2 1) : asymSave exLib w t exName (some "python") = (w, .error (.py .valueError)) :=
  C114_asym_save_format exLib w t exName (some "python") (by rintro (h | h) <;> simp at h)

/-- `C114_load_format`: an explicit format, and a missing file. -/
example : asymLoad exLib ⟨fun _ => none, 7⟩ exName none = .error .os :=
  ((C114_load_format exLib ⟨fun _ => none, 7⟩ exName none true true).2.2 "json" (Or.inr ⟨rfl, Or.inr (Or.inl ⟨rfl, exName_json⟩)⟩)
    (by simp [Spec.supported]) rfl).1
example : bsLoad exLib ⟨fun _ => none, 7⟩ exName (some "xml") true true = .error (.py .valueError) :=
  ((C114_load_format exLib ⟨fun _ => none, 7⟩ exName (some "xml") true true).1 (by
    rintro f (h | h)
    · rw [← Option.some.inj h]; decide
    · simp at h)).2

/-- `C114_asym_save_failure`: no file name. -/
example (t : Tb 2 1) : asymSave exLib ⟨fun _ => none, 7⟩ t [] (some "json") = (⟨fun _ => none, 0⟩, .error .os) :=
  (C114_asym_save_failure exLib ⟨fun _ => none, 7⟩ t [] (some "json") (Or.inl rfl)).1 (by simp [exLib])

/-- A matrix with one entry. -/
def exMat (z : ℤ) : CMat 1 := Matrix.diagonal fun _ => (z : ℂ)

theorem exMat_herm (z : ℤ) : (exMat z)ᴴ = exMat z := by
  rw [exMat, Matrix.diagonal_conjTranspose]
  congr 1
  funext _
  simp

theorem exNoTiny (z : ℤ) : Spec.NoTiny (exMat z) := by
  intro i j
  rw [Subsingleton.elim i j, exMat, Matrix.diagonal_apply_eq]
  have h : ((z : ℂ)).re = (z : ℝ) ∧ ((z : ℂ)).im = 0 := ⟨Complex.intCast_re z, Complex.intCast_im z⟩
  rw [h.1, h.2]
  refine ⟨?_, Or.inl rfl⟩
  by_cases hz : z = 0
  · left; simp [hz]
  · right
    have h1 : (1 : ℝ) ≤ |(z : ℝ)| := by exact_mod_cast Int.one_le_abs hz
    have h2 : (1 : ℝ) / 10 ^ 14 ≤ 1 := by norm_num
    linarith

/-- `C114_asym_json`: two terms. -/
example : ∃ w' t', asymSave exLib ⟨fun _ => none, 7⟩ (⟨⟨[(0, exMat (5)), (1, exMat (-3))]⟩, ⟨[(0, 1)]⟩⟩ : Tb 2 1)
      exName none = (w', .ok ()) ∧ w'.options = 7 ∧ asymLoad exLib w' exName none = .ok ⟨2, 1, t'⟩ := by
  obtain ⟨w', t', h1, h2, h3, -⟩ := C114_asym_json exLib exLib_contract ⟨fun _ => none, 7⟩ [(0 : RVec 2), 1]
    [exMat (5), exMat (-3)]
    (⟨[(0, exMat (5)), (1, exMat (-3))]⟩ : Series 2 1) ⟨[(0, 1)]⟩ (by simp [mkSeries, vnorm])
    one_pos (by
      intro r hr
      rw [List.tail_cons, List.mem_singleton] at hr
      rw [hr]
      exact one_ne_zero) (by
      intro M hM
      rcases List.mem_cons.1 hM with rfl | hM
      · exact exNoTiny 5
      · rw [List.mem_singleton.1 hM]; exact exNoTiny (-3)) exName none
    (Or.inr ⟨rfl, rfl, exName_json⟩) (by simp [exLib, exName])
  exact ⟨w', t', h1, h2.1, h3⟩

/-- `C114_overlap_lost`, `C114_bs_json_symmetry`. -/
example := C114_overlap_lost (d := 3) exLib exLib_contract ⟨fun _ => none, 7⟩ exName (by simp [exLib, exName])
example := C114_bs_json_symmetry exLib exLib_contract ⟨fun _ => none, 7⟩ exName (by simp [exLib, exName]) false true

/-- `C114_bs_save_format`: ".dat". -/
example (b : BS.BSM 2 1) (hb : b = ⟨.tb ⟨[1], false, [0], false, true⟩, 1, [], none⟩) :
    bsSave exLib ⟨fun _ => none, 7⟩ b ['.', 'd', 'a', 't'] none = (⟨fun _ => none, 0⟩, .error (.py .notImplemented)) :=
  ((C114_bs_save_format exLib ⟨fun _ => none, 7⟩ b ['.', 'd', 'a', 't'] none).2.2 _ (by rw [hb])
    (Or.inr ⟨rfl, Or.inr (Or.inr ⟨rfl, [], rfl⟩)⟩)).2 _ (by rw [hb]; rfl)

/-- `C114_bs_json` in two dimensions: the loaded model cannot be evaluated. -/
example : ∃ (b' : BS.BSM 2 1) (w' : World ExFile ℕ) (o : BsObj), b'.f 0 0 0 = 11 ∧
    bsSave exLib ⟨fun _ => none, 7⟩ b' exName none = (w', .ok ()) ∧ bsLoad exLib w' exName none false true = .ok o ∧
    ∀ k, o.f k = .error .valueError := by
  obtain ⟨b, b', h1, h2, -, h4⟩ := BS.C30_none false true (0 : RVec 2) (fun _ : Fin 1 => 1) (exMat (5))
    (fun _ => exMat (3)) (exMat_herm 5)
  have ho : ∀ H : CMat 1, BS.Spec.other true false H = H := fun H => by simp [BS.Spec.other]
  obtain ⟨w', N', P0, Ps, g1, -, g3, -, -, g6, -⟩ := C114_bs_json exLib exLib_contract ⟨fun _ => none, 7⟩ [1] false false true false true
    (fun _ : Fin 1 => (1 : RVec 2)) (exMat (5)) (fun _ => exMat (3)) b b' h1 h2
    (exMat_herm 5) one_pos (fun _ => one_ne_zero) (exNoTiny 5)
    (fun j => by rw [ho]; exact exNoTiny 3) exName none (Or.inr ⟨rfl, Or.inr (Or.inl ⟨rfl, exName_json⟩)⟩) (by simp [exLib, exName])
  refine ⟨b', w', _, ?_, g1, g3, g6 (by norm_num) one_pos⟩
  rw [h4]
  simp [BS.Spec.phase, exMat]
  norm_num

/-- `C114_bs_no_matrices`: a wannier90 file without blocks. -/
example (file : ExFile) : bsLoad { exLib with wannier := fun _ _ => .ok ⟨1, ([], [])⟩ } ⟨fun _ => some file, 7⟩ exName (some "wannier90hr") true true =
    .error (.py .indexError) :=
  (C114_bs_no_matrices _ _ _ _ _ _ file rfl).1 "wannier90hr" (Or.inl rfl) (Or.inl rfl) ⟨1, [], rfl⟩

/-- `C114_python`: without symmetry. -/
example : ∃ (b' : BS.BSM 2 1) (w' : World ExFile ℕ) (t : Tb 2 1),
    bsSave exLib ⟨fun _ => none, 7⟩ b' exName (some "python") = (w', .ok ()) ∧
    asymLoad exLib w' exName (some "python") = .ok ⟨2, 1, t⟩ ∧ t.H.f 0 = .ok (b'.f 0) := by
  obtain ⟨b, b', h1, h2, -, h4⟩ := BS.C30_none false true (0 : RVec 2) (fun _ : Fin 1 => 1) (1 : CMat 1) (fun _ => 1) (by simp)
  have hs : mkSym ([1] : List (Matrix (Fin 2) (Fin 2) ℝ)) false = .ok ⟨[1], false⟩ := by
    rw [mkSym_fix_iff]
    exact ⟨rfl, by simp, fun _ => rfl, fun _ => Or.inl rfl⟩
  obtain ⟨w', b'', g1, -, -, -, -, -, g7⟩ := C114_python exLib exLib_contract ⟨fun _ => none, 7⟩ (⟨[1], false⟩ : Sym ℝ 2) ⟨_, _, hs⟩
    false true false true 0 (fun _ : Fin 1 => 1) 1 (fun _ => 1) b b' h1 h2 (by simp) exName (some "python") (Or.inl rfl)
    (by simp [exLib, exName])
  obtain ⟨t, e1, e2⟩ := g7 rfl rfl rfl (by simp)
  exact ⟨b', w', t, g1, e1, (e2 0).1⟩

/-- `C114_wannier`. -/
example : ∃ t : Tb 3 1, asymLoad exLib ⟨fun _ => some .empty, 7⟩ ['h', 'r', '.', 'd', 'a', 't'] none = .ok ⟨3, 1, t⟩ := by
  obtain ⟨t, h, -⟩ := ((C114_wannier exLib ⟨fun _ => some .empty, 7⟩ ['h', 'r', '.', 'd', 'a', 't'] none true true true
    (Or.inr ⟨rfl, Or.inr (Or.inr (Or.inr ⟨rfl, [], rfl⟩))⟩) .empty rfl).2.2 1 1 (fun _ => 1) 2 (fun _ => 1) (by simp [exLib])
    (by simp)).1
  exact ⟨t, h⟩

end TB.Files
