import Mathlib.Tactic.FinCases
import Mathlib.Tactic.FieldSimp
import Mathlib.Tactic.NormNum
import Mathlib.Tactic.Linarith
import Verif.Model.FromDisk
import Verif.Spec.QeXml

/-!
# C131: `from_disk`
-/

namespace TB.PropsFromDisk
open TB TB.FromDisk TB.Spec.Xml

theorem vec3_ok {l : List ℝ} (h : l.length = 3) : vec3 l = .ok fun i : Fin 3 => l.getD i.val 0 := by
  unfold vec3
  rw [if_pos h]

theorem atomLoop_ok {A : Mat ℝ 3} (hA : A.det ≠ 0) (l : List (String × List ℝ)) (h : ∀ a ∈ l, a.2.length = 3) :
    atomLoop A l = .ok (l.map fun a => A⁻¹.mulVec fun i : Fin 3 => a.2.getD i.val 0, l.map Prod.fst) := by
  induction l with
  | nil => rfl
  | cons a l ih =>
    rw [atomLoop, vec3_ok (h a (by simp))]
    simp only [bind, Except.bind]
    rw [if_neg hA, ih fun b hb => h b (by simp [hb])]
    rfl

theorem atomLoop_err (A : Mat ℝ 3) (l : List (String × List ℝ)) (hl : l ≠ []) (h : ∀ a ∈ l, a.2.length = 3) (hA : A.det = 0) :
    atomLoop A l = .error .valueError := by
  cases l with
  | nil => exact absurd rfl hl
  | cons a l =>
    rw [atomLoop, vec3_ok (h a (by simp))]
    simp only [bind, Except.bind]
    rw [if_pos hA]

/-- The lattice as it stands in the file, columns. -/
def fileLattice (s : Section) : Mat ℝ 3 := Matrix.of fun i j => (![s.a1, s.a2, s.a3] j).getD i.val 0

/-- **C131.** Which parts of the file end up where.  The positions are multiplied with the inverse of the *converted* lattice: `A @ basis[n]`
gives back the numbers of the file although `A` is in Angstrom and those are in units of the Bohr radius. -/
theorem C131_from_disk (bohr kB : ℝ) (hb : bohr ≠ 0) (name : String) (doc : Doc) (pp : String → Option String) (ro : Bool) (s : Section)
    (hs : (if ro then doc.output else doc.input) = some s) (h1 : s.a1.length = 3) (h2 : s.a2.length = 3) (h3 : s.a3.length = 3)
    (hat : ∀ a ∈ s.atoms, a.2.length = 3) (hA : (fileLattice s).det ≠ 0) :
    ∃ c pp', fromDisk bohr kB name doc pp ro = .ok (c, pp') ∧
      (∀ i j, c.A i j = bohr * (![s.a1, s.a2, s.a3] j).getD i.val 0) ∧
      c.types = s.atoms.map Prod.fst ∧ c.basis.length = s.atoms.length ∧
      (∀ (n : ℕ) (a : String × List ℝ) (b : Fin 3 → ℝ), s.atoms[n]? = some a → c.basis[n]? = some b → ∀ i, c.A.mulVec b i = a.2.getD i.val 0) ∧
      c.cutoff = s.ecutwfc ∧ c.relativistic = false ∧ c.name = name ∧
      (∀ w, s.smearing = some ("fd", w) → c.T = w / kB) ∧ ((∀ w, s.smearing ≠ some ("fd", w)) → c.T = 0) ∧
      c.nk = doc.npool ∧ c.ni = doc.nprocs ∧ c.nd = doc.ndiag ∧ c.nt = doc.ntasks ∧
      (∀ t, (∀ x ∈ s.species, x.1 ≠ t) → pp' t = pp t) ∧
      (∀ t f l r, s.species = l ++ (t, f) :: r → (∀ x ∈ r, x.1 ≠ t) → pp' t = some f) := by
  have hdet : (bohr • fileLattice s).det ≠ 0 := by
    rw [Matrix.det_smul]
    exact mul_ne_zero (pow_ne_zero _ hb) hA
  have hm : (Matrix.of fun i j => ![fun i : Fin 3 => s.a1.getD i.val 0, fun i : Fin 3 => s.a2.getD i.val 0, fun i : Fin 3 => s.a3.getD i.val 0] j i)
      = fileLattice s := by
    ext i j
    fin_cases j <;> rfl
  have hpp : ∀ (l : List (String × String)) (d : String → Option String) t, (∀ x ∈ l, x.1 ≠ t) → addSpecies d l t = d t := by
    intro l
    induction l with
    | nil => intro d t _; rfl
    | cons x l ih =>
      intro d t h
      have := ih (fun t => if t = x.1 then some x.2 else d t) t fun y hy => h y (by simp [hy])
      show addSpecies (fun t => if t = x.1 then some x.2 else d t) l t = d t
      rw [this, if_neg (Ne.symm (h x (by simp)))]
  have hcomp : fromDisk bohr kB name doc pp ro = .ok (⟨name, bohr • fileLattice s,
      s.atoms.map fun a => (bohr • fileLattice s)⁻¹.mulVec fun i : Fin 3 => a.2.getD i.val 0, s.atoms.map Prod.fst, s.ecutwfc,
      (match s.smearing with
      | some (kind, degauss) => if kind = "fd" then degauss / kB else 0
      | none => 0), false, doc.npool, doc.ndiag, doc.nprocs, doc.ntasks⟩, addSpecies pp s.species) := by
    unfold fromDisk
    rw [hs]
    simp only [vec3_ok h1, vec3_ok h2, vec3_ok h3, bind, Except.bind]
    rw [hm, atomLoop_ok hdet s.atoms hat]
    rfl
  refine ⟨_, _, hcomp, ?_, ?_, ?_, ?_, ?_, ?_, ?_, ?_, ?_, ?_, ?_, ?_, ?_, ?_, ?_⟩
  · intro i j
    rfl
  · rfl
  · simp
  · intro n a b hna hnb i
    simp only [List.getElem?_map, hna, Option.map_some, Option.some.injEq] at hnb
    subst hnb
    simp only
    rw [Matrix.mulVec_mulVec, Matrix.mul_nonsing_inv _ (isUnit_iff_ne_zero.2 hdet), Matrix.one_mulVec]
  · rfl
  · rfl
  · rfl
  · intro w hw
    simp only [hw, if_true]
  · intro hw
    cases hsm : s.smearing with
    | none => rfl
    | some p =>
      obtain ⟨k, w⟩ := p
      simp only
      rw [if_neg]
      rintro rfl
      exact hw w hsm
  · rfl
  · rfl
  · rfl
  · rfl
  · exact fun t ht => hpp s.species pp t ht
  · intro t f l r hlr hr
    have : addSpecies pp s.species t = addSpecies (addSpecies pp (l ++ [(t, f)])) r t := by
      rw [hlr]
      simp [addSpecies, List.foldl_append]
    show addSpecies pp s.species t = some f
    rw [this, hpp r _ t hr]
    simp [addSpecies, List.foldl_append]

/-- **C131.** What raises: a missing section, a lattice vector without three numbers, a singular lattice with at least one atom. -/
theorem C131_errors (bohr kB : ℝ) (name : String) (doc : Doc) (pp : String → Option String) (ro : Bool) :
    ((if ro then doc.output else doc.input) = none → fromDisk bohr kB name doc pp ro = .error .indexError) ∧
    (∀ s, (if ro then doc.output else doc.input) = some s → (s.a1.length ≠ 3 ∨ s.a2.length ≠ 3 ∨ s.a3.length ≠ 3) →
      fromDisk bohr kB name doc pp ro = .error .valueError) ∧
    (∀ s, (if ro then doc.output else doc.input) = some s → s.a1.length = 3 → s.a2.length = 3 → s.a3.length = 3 →
      (∀ a ∈ s.atoms, a.2.length = 3) → s.atoms ≠ [] → (fileLattice s).det = 0 → fromDisk bohr kB name doc pp ro = .error .valueError) := by
  have hv : ∀ {l : List ℝ}, l.length ≠ 3 → vec3 l = .error .valueError := by
    intro l hl
    unfold vec3
    rw [if_neg hl]
  refine ⟨?_, ?_, ?_⟩
  · intro h
    unfold fromDisk
    rw [h]
  · intro s hs h
    unfold fromDisk
    rw [hs]
    simp only [bind, Except.bind]
    by_cases h1 : s.a1.length = 3
    · by_cases h2 : s.a2.length = 3
      · have h3 : s.a3.length ≠ 3 := by
          rcases h with h | h | h
          · exact absurd h1 h
          · exact absurd h2 h
          · exact h
        rw [vec3_ok h1, vec3_ok h2, hv h3]
      · rw [vec3_ok h1, hv h2]
    · rw [hv h1]
  · intro s hs h1 h2 h3 hat hne hdet
    have hm : (Matrix.of fun i j => ![fun i : Fin 3 => s.a1.getD i.val 0, fun i : Fin 3 => s.a2.getD i.val 0, fun i : Fin 3 => s.a3.getD i.val 0] j i)
        = fileLattice s := by
      ext i j
      fin_cases j <;> rfl
    unfold fromDisk
    rw [hs]
    simp only [vec3_ok h1, vec3_ok h2, vec3_ok h3, bind, Except.bind]
    rw [hm, atomLoop_err _ _ hne hat (by rw [Matrix.det_smul, hdet, mul_zero])]

/-- **C131 (disagreement).** For the file that Quantum Espresso writes for a run, `from_disk` gives the lattice in Angstrom, but crystal
coordinates that are too large by the factor 1/0.529 (right only for atoms in the origin), half of the cutoff and half of the temperature. -/
theorem C131_defect_units (bohr kB : ℝ) (hb : bohr ≠ 0) (hk : kB ≠ 0) (name : String) (doc : Doc) (pp : String → Option String) (ro : Bool)
    (r : Run) (hdet : r.lattice.det ≠ 0) (s : Section) (hs : (if ro then doc.output else doc.input) = some s)
    (h1 : s.a1 = r.vector 0) (h2 : s.a2 = r.vector 1) (h3 : s.a3 = r.vector 2) (hat : s.atoms = r.positions)
    (hc : s.ecutwfc = r.cutoff) (hT : s.smearing = some ("fd", r.degauss kB)) :
    ∃ c pp', fromDisk bohr kB name doc pp ro = .ok (c, pp') ∧ c.A = bohr • r.lattice ∧ c.types = r.atoms.map Prod.fst ∧
      c.basis = r.atoms.map (fun a => bohr⁻¹ • a.2) ∧ c.cutoff = r.cutoffRy / 2 ∧ c.T = r.T / 2 ∧
      (bohr ≠ 1 → ∀ (n : ℕ) (a : String × (Fin 3 → ℝ)), r.atoms[n]? = some a → a.2 ≠ 0 → c.basis[n]? ≠ some a.2) := by
  have hl : fileLattice s = r.lattice := by
    ext i j
    simp only [fileLattice, h1, h2, h3, Run.vector, nums]
    fin_cases i <;> fin_cases j <;> rfl
  obtain ⟨c, pp', e, hA, ht, hlen, hbas, hcut, _, _, hT1, _⟩ := C131_from_disk bohr kB hb name doc pp ro s hs (by rw [h1]; rfl) (by rw [h2]; rfl)
    (by rw [h3]; rfl) (by
      rw [hat]
      intro a ha
      obtain ⟨x, _, rfl⟩ := List.mem_map.1 ha
      rfl) (by rw [hl]; exact hdet)
  have hAm : c.A = bohr • r.lattice := by
    rw [← hl]
    ext i j
    exact hA i j
  have hdet' : c.A.det ≠ 0 := by
    rw [hAm, Matrix.det_smul]
    exact mul_ne_zero (pow_ne_zero _ hb) hdet
  have hbs : c.basis = r.atoms.map (fun a => bohr⁻¹ • a.2) := by
    apply List.ext_getElem?
    intro n
    rw [List.getElem?_map]
    by_cases hn : n < r.atoms.length
    · have hn' : n < c.basis.length := by
        rw [hlen, hat, Run.positions, List.length_map]
        exact hn
      obtain ⟨a, ha⟩ : ∃ a, r.atoms[n]? = some a := ⟨_, List.getElem?_eq_getElem hn⟩
      obtain ⟨b, hb'⟩ : ∃ b, c.basis[n]? = some b := ⟨_, List.getElem?_eq_getElem hn'⟩
      have := hbas n (a.1, nums (r.lattice.mulVec a.2)) b (by rw [hat, Run.positions, List.getElem?_map, ha]; rfl) hb'
      rw [ha, hb', Option.map_some]
      congr 1
      have e1 : c.A.mulVec b = c.A.mulVec (bohr⁻¹ • a.2) := by
        rw [Matrix.mulVec_smul]
        conv_rhs => rw [hAm]
        rw [Matrix.smul_mulVec, smul_smul, inv_mul_cancel₀ hb, one_smul]
        funext i
        rw [this i]
        fin_cases i <;> rfl
      have := congrArg (fun v => c.A⁻¹.mulVec v) e1
      simp only [Matrix.mulVec_mulVec] at this
      rwa [Matrix.nonsing_inv_mul _ (isUnit_iff_ne_zero.2 hdet'), Matrix.one_mulVec, Matrix.one_mulVec] at this
    · have hn' : ¬ n < c.basis.length := by
        rw [hlen, hat, Run.positions, List.length_map]
        exact hn
      rw [List.getElem?_eq_none (by omega), List.getElem?_eq_none (by omega)]
      rfl
  refine ⟨c, pp', e, hAm, ?_, hbs, by rw [hcut, hc, Run.cutoff], ?_, ?_⟩
  · rw [ht, hat, Run.positions, List.map_map]
    rfl
  · rw [hT1 _ hT, Run.degauss]
    field_simp
  · intro hb1 n a ha hne hcon
    rw [hbs, List.getElem?_map, ha, Option.map_some, Option.some.injEq] at hcon
    obtain ⟨i, hi⟩ : ∃ i, a.2 i ≠ 0 := by
      by_contra hall
      push Not at hall
      exact hne (funext hall)
    have := congrFun hcon i
    simp only [Pi.smul_apply, smul_eq_mul] at this
    apply hb1
    have e2 : a.2 i = bohr * a.2 i := by
      conv_lhs => rw [show a.2 i = bohr * (bohr⁻¹ * a.2 i) by field_simp]
      rw [this]
    exact mul_right_cancel₀ hi (by linarith)

/-- Two atoms in a cubic cell of 10 Bohr radii, the second in the middle; 60 Ry; 300 K. -/
noncomputable def exRun : Run := ⟨(10 : ℝ) • 1, [("Cs", 0), ("Cl", fun _ => 1 / 2)], 60, 300⟩

noncomputable def exSection : Section :=
  ⟨[("Cs", "Cs.upf"), ("Cl", "Cl.upf")], exRun.vector 0, exRun.vector 1, exRun.vector 2, exRun.positions, exRun.cutoff, some ("fd", exRun.degauss (1 / 160000))⟩

noncomputable def exDoc : Doc := ⟨4, 1, 2, 1, some exSection, none⟩

/-- The middle atom is read as 1/(2 · 0.529) in all directions, the cutoff as 30. -/
example : ∃ c pp', fromDisk (529 / 1000) (1 / 160000) "CsCl" exDoc (fun _ => none) true = .ok (c, pp') ∧
    c.basis[1]? = some (fun _ => 500 / 529) ∧ c.cutoff = 30 ∧ c.T = 150 := by
  obtain ⟨c, pp', h, _, _, hb, hc, hT, _⟩ := C131_defect_units (529 / 1000) (1 / 160000) (by norm_num) (by norm_num) "CsCl" exDoc (fun _ => none) true exRun
    (by simp [exRun]) exSection rfl rfl rfl rfl rfl rfl rfl
  refine ⟨c, pp', h, ?_, by rw [hc]; norm_num [exRun], by rw [hT]; norm_num [exRun]⟩
  rw [hb]
  simp only [exRun, List.map_cons, List.map_nil, List.getElem?_cons_succ, List.getElem?_cons_zero, Option.some.injEq]
  funext i
  norm_num

/-- The pseudo potentials are registered. -/
example : ∃ c pp', fromDisk (529 / 1000) (1 / 160000) "CsCl" exDoc (fun _ => none) true = .ok (c, pp') ∧ pp' "Cs" = some "Cs.upf" ∧ c.nk = 4 := by
  obtain ⟨c, pp', h, _, _, _, _, _, _, _, _, _, hn, _, _, _, _, hp⟩ := C131_from_disk (529 / 1000) (1 / 160000) (by norm_num) "CsCl" exDoc
    (fun _ => none) true exSection rfl rfl rfl rfl
    (by
      intro a ha
      obtain ⟨x, _, rfl⟩ := List.mem_map.1 ha
      rfl)
    (by
      have : fileLattice exSection = (10 : ℝ) • 1 := by
        ext i j
        fin_cases i <;> fin_cases j <;> simp [fileLattice, exSection, Run.vector, nums, exRun]
      rw [this]
      simp)
  exact ⟨c, pp', h, hp "Cs" "Cs.upf" [] [("Cl", "Cl.upf")] rfl (by simp), hn⟩

/-- The `input` section is missing in that document. -/
example : fromDisk (529 / 1000) (1 / 160000) "CsCl" exDoc (fun _ => none) false = .error .indexError := (C131_errors _ _ _ _ _ _).1 rfl

end TB.PropsFromDisk
