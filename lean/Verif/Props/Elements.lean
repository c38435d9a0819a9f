import Mathlib.Data.List.Basic
import Mathlib.Tactic.Ring
import Mathlib.Tactic.Linarith
import Mathlib.Tactic.NormNum
import Mathlib.Tactic.Positivity
import Verif.Model.Elements
import Verif.Spec.PeriodicTable

/-!
# C139: element tables and the mass of a cell
-/

namespace TB.PropsElements
open TB TB.Elements TB.Spec.PeriodicTable

theorem numbers_eq : elementNumbers = symbols.zipIdx := by decide +kernel

theorem symbols_nodup : symbols.Nodup := by decide +kernel

theorem lookup_zipIdx (t : String) : ∀ (l : List String) (n : ℕ), l.Nodup → ∀ i,
    ((l.zipIdx n).lookup t = some (n + i) ↔ l[i]? = some t)
  | [], n, _, i => by simp
  | a :: l, n, h, i => by
    rw [List.nodup_cons] at h
    rw [List.zipIdx_cons, List.lookup_cons]
    by_cases ha : t = a
    · subst ha
      simp only [beq_self_eq_true]
      cases i with
      | zero => simp
      | succ i =>
        simp only [List.getElem?_cons_succ]
        constructor
        · intro h'; simp at h'
        · intro h'; exact absurd (List.mem_of_getElem? h') h.1
    · have : (t == a) = false := by simpa using ha
      simp only [this]
      cases i with
      | zero =>
        simp only [add_zero, List.getElem?_cons_zero, Option.some.injEq]
        constructor
        · intro h'
          exfalso
          have key : ∀ (l : List String) (m : ℕ), ∀ x, (l.zipIdx m).lookup t = some x → m ≤ x := by
            intro l
            induction l with
            | nil => intro m x hx; simp at hx
            | cons b l ih =>
              intro m x hx
              rw [List.zipIdx_cons, List.lookup_cons] at hx
              split at hx
              · simp at hx; omega
              · have := ih _ _ hx; omega
          have := key _ _ _ h'
          omega
        · intro h'; exact absurd h'.symm ha
      | succ i =>
        rw [List.getElem?_cons_succ, ← lookup_zipIdx t l (n + 1) h.2 i, show n + 1 + i = n + (i + 1) by ring]

theorem lookup_iff (t : String) (i : ℕ) : elementNumbers.lookup t = some i ↔ symbols[i]? = some t := by
  have := lookup_zipIdx t symbols 0 symbols_nodup i
  rwa [zero_add, ← numbers_eq] at this

/-- C139.  The number of an element in the tables is its atomic number minus one, there is no other key, and every element has a positive mass. -/
theorem C139_tables : symbols.length = 118 ∧ elementMasses.length = 118 ∧
    (∀ t Z, IsAtomicNumber t Z ↔ number t = .ok (Z - 1) ∧ 1 ≤ Z) ∧
    (∀ t, (∀ Z, ¬ IsAtomicNumber t Z) → number t = .error .keyError ∧ mass t = .error .keyError) ∧
    (∀ t Z, IsAtomicNumber t Z → ∃ m, mass t = .ok m ∧ elementMasses[Z - 1]? = some m ∧ 0 < m) := by
  have hlen : symbols.length = 118 := by decide +kernel
  have hlen' : elementMasses.length = 118 := by decide +kernel
  have hnum : ∀ t i, number t = .ok i ↔ symbols[i]? = some t := by
    intro t i
    rw [← lookup_iff, number]
    cases elementNumbers.lookup t <;> simp
  refine ⟨hlen, hlen', fun t Z => ?_, fun t ht => ?_, fun t Z hZ => ?_⟩
  · rw [hnum]
    constructor
    · rintro ⟨i, hi, rfl⟩
      exact ⟨hi, by omega⟩
    · rintro ⟨h, hZ⟩
      exact ⟨Z - 1, h, by omega⟩
  · have hn : elementNumbers.lookup t = none := by
      cases hl : elementNumbers.lookup t with
      | none => rfl
      | some i => exact absurd ⟨i, (lookup_iff t i).1 hl, rfl⟩ (ht (i + 1))
    exact ⟨by rw [number, hn], by rw [mass, hn]⟩
  · obtain ⟨i, hi, rfl⟩ := hZ
    have hlt : i < elementMasses.length := by
      rw [hlen', ← hlen]
      exact (List.getElem?_eq_some_iff.1 hi).1
    refine ⟨elementMasses[i], ?_, ?_, ?_⟩
    · rw [mass, (lookup_iff t i).2 hi]
      simp only [List.getElem?_eq_getElem hlt]
    · rw [Nat.add_sub_cancel, List.getElem?_eq_getElem hlt]
    · have hall : ∀ m ∈ elementMasses, 0 < m := by decide +kernel
      exact hall _ (List.getElem_mem hlt)

example : IsAtomicNumber "Cu" 29 ∧ number "Cu" = .ok 28 ∧ mass "Cu" = .ok (6355 / 100) :=
  ⟨⟨28, by decide, rfl⟩, by decide +kernel, by decide +kernel⟩

theorem sumOver_ok (f : String → Except Err ℚ) (g : String → ℚ) : ∀ (l : List String) (a : ℚ), (∀ t ∈ l, f t = .ok (g t)) →
    sumOver f l a = .ok (a + (l.map g).sum)
  | [], a, _ => by simp [sumOver]
  | t :: l, a, h => by
    rw [sumOver, h t (by simp)]
    simp only
    rw [sumOver_ok f g l _ fun t ht => h t (by simp [ht]), List.map_cons, List.sum_cons, add_assoc]

theorem sumOver_error (f : String → Except Err ℚ) (e : Err) : ∀ (l : List String) (a : ℚ), (∃ t ∈ l, ∃ e', f t = .error e') →
    (∀ t ∈ l, ∀ e', f t = .error e' → e' = e) → sumOver f l a = .error e
  | [], a, h, _ => by simp at h
  | t :: l, a, h, h' => by
    rw [sumOver]
    cases ht : f t with
    | error e' => simp only; rw [h' t (by simp) e' ht]
    | ok x =>
      simp only
      refine sumOver_error f e l _ ?_ fun t ht => h' t (by simp [ht])
      obtain ⟨s, hs, e', hse⟩ := h
      rcases List.mem_cons.1 hs with rfl | hs
      · rw [ht] at hse; cases hse
      · exact ⟨s, hs, e', hse⟩

/-- C139.  The mass of a cell: the atomic masses (which contain the electrons) in kg, plus `Z - 1` electron masses per atom. -/
theorem C139_mass (types : List String) (Z : String → ℕ) (m : String → ℚ) (hZ : ∀ t ∈ types, IsAtomicNumber t (Z t))
    (hm : ∀ t ∈ types, elementMasses[Z t - 1]? = some (m t)) :
    massPerCell types = .ok (166053907 / 10 ^ 35 * (types.map m).sum +
      91093837 / 10 ^ 38 * ((types.map fun t => (Z t : ℚ)).sum - types.length)) := by
  have h1 : ∀ t ∈ types, mass t = .ok (m t) := by
    intro t ht
    obtain ⟨x, hx, hx', -⟩ := C139_tables.2.2.2.2 t _ (hZ t ht)
    rw [hm t ht] at hx'
    rw [hx, Option.some.inj hx']
  have h2 : ∀ t ∈ types, ((number t).map fun i => (i : ℚ)) = .ok ((Z t : ℚ) - 1) := by
    intro t ht
    obtain ⟨h, h1⟩ := (C139_tables.2.2.1 t _).1 (hZ t ht)
    rw [h]
    change Except.ok ((Z t - 1 : ℕ) : ℚ) = _
    rw [Nat.cast_sub h1, Nat.cast_one]
  have h3 : (types.map fun t => (Z t : ℚ) - 1).sum = (types.map fun t => (Z t : ℚ)).sum - types.length := by
    clear h2 h1 hZ hm
    induction types with
    | nil => simp
    | cons a l ih => simp only [List.map_cons, List.sum_cons, ih, List.length_cons]; push_cast; ring
  rw [massPerCell, sumOver_ok _ _ _ _ h1]
  simp only
  rw [sumOver_ok _ (fun t => (Z t : ℚ) - 1) _ _ h2]
  simp only [zero_add, h3]
  congr 1
  ring

example : massPerCell ["Na", "Cl"] = .ok (166053907 / 10 ^ 35 * (229897693 / 10 ^ 7 + 3545 / 100) + 91093837 / 10 ^ 38 * (11 + 17 - 2)) := by
  decide +kernel

/-- C139.  Unknown types raise `KeyError`; the mass does not depend on the order of the atoms, adds up over parts, and is positive. -/
theorem C139_laws :
    (∀ types : List String, (∃ t ∈ types, ∀ Z, ¬ IsAtomicNumber t Z) → massPerCell types = .error .keyError) ∧
    (∀ a b : List String, ∀ x y, massPerCell a = .ok x → massPerCell b = .ok y → massPerCell (a ++ b) = .ok (x + y)) ∧
    (∀ a b : List String, a.Perm b → massPerCell a = massPerCell b) ∧
    (∀ a : List String, a ≠ [] → ∀ x, massPerCell a = .ok x → 0 < x) := by
  -- a table of masses and atomic numbers for all strings
  have hex : ∀ t : String, ∃ z : ℕ, ∃ m : ℚ, (∃ Z, IsAtomicNumber t Z) → IsAtomicNumber t z ∧ elementMasses[z - 1]? = some m ∧ 0 < m := by
    intro t
    by_cases h : ∃ Z, IsAtomicNumber t Z
    · obtain ⟨Z, hZ⟩ := h
      obtain ⟨m, -, h1, h2⟩ := C139_tables.2.2.2.2 t Z hZ
      exact ⟨Z, m, fun _ => ⟨hZ, h1, h2⟩⟩
    · exact ⟨0, 0, fun h' => absurd h' h⟩
  choose Z m hZm using hex
  have hbad : ∀ types : List String, (∃ t ∈ types, ∀ Z, ¬ IsAtomicNumber t Z) → massPerCell types = .error .keyError := by
    rintro types ⟨t, ht, hn⟩
    rw [massPerCell, sumOver_error mass .keyError types 0 ⟨t, ht, _, (C139_tables.2.2.2.1 t hn).2⟩]
    intro s _ e' he
    by_cases h : ∃ Z, IsAtomicNumber s Z
    · obtain ⟨Z, hZ⟩ := h
      obtain ⟨m, hm, -⟩ := C139_tables.2.2.2.2 s Z hZ
      rw [hm] at he; cases he
    · push Not at h
      rw [(C139_tables.2.2.2.1 s h).2] at he
      exact (Except.error.inj he).symm
  have hgood : ∀ types : List String, ∀ x, massPerCell types = .ok x → ∀ t ∈ types, ∃ Z, IsAtomicNumber t Z := by
    intro types x hx t ht
    by_contra h
    push Not at h
    rw [hbad types ⟨t, ht, h⟩] at hx
    cases hx
  have hval : ∀ types : List String, (∀ t ∈ types, ∃ Z, IsAtomicNumber t Z) → massPerCell types = .ok
      (166053907 / 10 ^ 35 * (types.map m).sum + 91093837 / 10 ^ 38 * ((types.map fun t => (Z t : ℚ)).sum - types.length)) :=
    fun types h => C139_mass types Z m (fun t ht => (hZm t (h t ht)).1) (fun t ht => (hZm t (h t ht)).2.1)
  refine ⟨hbad, fun a b x y hx hy => ?_, fun a b hab => ?_, fun a ha x hx => ?_⟩
  · have h1 := hgood a x hx
    have h2 := hgood b y hy
    rw [hval a h1] at hx
    rw [hval b h2] at hy
    rw [hval (a ++ b) (by intro t ht; rcases List.mem_append.1 ht with h | h; exacts [h1 t h, h2 t h]), ← Except.ok.inj hx, ← Except.ok.inj hy]
    simp only [List.map_append, List.sum_append, List.length_append]
    congr 1
    push_cast
    ring
  · by_cases h : ∀ t ∈ a, ∃ Z, IsAtomicNumber t Z
    · rw [hval a h, hval b fun t ht => h t (hab.mem_iff.2 ht), (hab.map m).sum_eq, (hab.map fun t => (Z t : ℚ)).sum_eq, hab.length_eq]
    · push Not at h
      obtain ⟨t, ht, hn⟩ := h
      rw [hbad a ⟨t, ht, hn⟩, hbad b ⟨t, hab.mem_iff.1 ht, hn⟩]
  · have h1 := hgood a x hx
    rw [hval a h1] at hx
    rw [← Except.ok.inj hx]
    have hp : ∀ l : List String, (∀ t ∈ l, ∃ Z, IsAtomicNumber t Z) → l ≠ [] → 0 < (l.map m).sum := by
      intro l hl hne
      refine List.sum_pos _ ?_ (by simpa using hne)
      intro y hy
      obtain ⟨t, ht, rfl⟩ := List.mem_map.1 hy
      exact (hZm t (hl t ht)).2.2
    have hq : ∀ l : List String, (∀ t ∈ l, ∃ Z, IsAtomicNumber t Z) → 0 ≤ (l.map fun t => (Z t : ℚ)).sum - l.length := by
      intro l
      induction l with
      | nil => intro _; simp
      | cons t l ih =>
        intro hl
        have h1 := ih fun t ht => hl t (by simp [ht])
        have h2 : (1 : ℚ) ≤ Z t := by
          obtain ⟨i, _, hi⟩ := (hZm t (hl t (by simp))).1
          rw [hi]; push_cast; linarith [(Nat.cast_nonneg i : (0 : ℚ) ≤ i)]
        simp only [List.map_cons, List.sum_cons, List.length_cons]
        push_cast
        linarith
    have h3 := hp a h1 ha
    have h4 := hq a h1
    positivity

example : massPerCell ["Na", "X"] = .error .keyError := by decide +kernel

/-- C139.  "electron mass": hydrogen counts no electron, and every cell one electron per atom too few. -/
theorem C139_defect_electrons : massPerCell ["H"] = .ok (166053907 / 10 ^ 35 * (1008 / 1000)) ∧
    ∀ (types : List String) (Z : String → ℕ) (m : String → ℚ), (∀ t ∈ types, IsAtomicNumber t (Z t)) →
      (∀ t ∈ types, elementMasses[Z t - 1]? = some (m t)) → types ≠ [] →
      massPerCell types ≠ .ok (166053907 / 10 ^ 35 * (types.map m).sum + 91093837 / 10 ^ 38 * (types.map fun t => (Z t : ℚ)).sum) := by
  refine ⟨by decide +kernel, fun types Z m h1 h2 h3 h => ?_⟩
  rw [C139_mass types Z m h1 h2] at h
  have := Except.ok.inj h
  have hl : (0 : ℚ) < types.length := by exact_mod_cast List.length_pos_iff.2 h3
  have h9 : (0 : ℚ) < 91093837 / 10 ^ 38 * types.length := by positivity
  nlinarith

end TB.PropsElements
