import Mathlib.Tactic.FinCases
import Mathlib.Tactic.NormNum
import Mathlib.Tactic.Linarith
import Mathlib.Tactic.Ring
import Mathlib.Algebra.BigOperators.Group.List.Basic
import Mathlib.Algebra.Order.Field.Rat
import Verif.Model.QeRead
import Verif.Spec.ProjXml

/-!
# C134-C137: readers of Quantum Espresso's text and XML files
-/

namespace TB.PropsQeRead
open TB TB.QeRead TB.Spec.ProjXml

/-! ## `read_projections_order_spilling` -/

/-- The names of one atom, as described. -/
def names (prefixOf : ℤ → String) (hasCharge : String → Bool) (a : ℤ × List String) : List String :=
  (a.2.filter fun k => wanted hasCharge k).map fun k => prefixOf a.1 ++ "_" ++ k

theorem keyLoop_skip (types : List String) (hc : String → Bool) (i : ℤ) (l o : List String) (h : ∀ k ∈ l, wanted hc k = false) :
    keyLoop types hc i l o = .ok o := by
  induction l generalizing o with
  | nil => rfl
  | cons k l ih =>
    rw [keyLoop, h k (by simp)]
    exact ih o fun x hx => h x (by simp [hx])

theorem keyLoop_many (types : List String) (ht : 2 ≤ types.length) (hc : String → Bool) (i : ℤ) (l o : List String) (h : ∃ k ∈ l, wanted hc k = true) :
    keyLoop types hc i l o = .error .valueError := by
  have htr : truth types = .error .valueError := by
    match types, ht with
    | _ :: _ :: _, _ => rfl
  induction l generalizing o with
  | nil => simp at h
  | cons k l ih =>
    rw [keyLoop]
    by_cases hk : wanted hc k = true
    · rw [if_pos hk, htr]
      rfl
    · rw [if_neg hk]
      obtain ⟨x, hx, hw⟩ := h
      rcases List.mem_cons.1 hx with rfl | hx
      · exact absurd hw hk
      · exact ih o ⟨x, hx, hw⟩

theorem keyLoop_one (t : String) (ht : t ≠ "") (hc : String → Bool) (l o : List String) :
    keyLoop [t] hc 1 l o = .ok (o ++ names (fun i => toString i ++ t) hc (1, l)) := by
  induction l generalizing o with
  | nil => simp [keyLoop, names]
  | cons k l ih =>
    rw [keyLoop]
    by_cases hk : wanted hc k = true
    · have h1 : truth [t] = .ok true := by simp [truth, ht]
      have h2 : pyItem [t] (1 - 1) = .ok t := rfl
      rw [if_pos hk, h1, h2]
      simp only [bind, Except.bind, if_true]
      rw [ih]
      simp [names, hk]
    · rw [if_neg hk, ih]
      simp [names, hk]

theorem foldlM_append {α : Type} (f : List String → α → Except Err (List String)) (g : α → List String) (l : List α) (o : List String)
    (h : ∀ a ∈ l, ∀ o, f o a = .ok (o ++ g a)) : l.foldlM f o = .ok (o ++ l.flatMap g) := by
  induction l generalizing o with
  | nil => simp [List.foldlM, pure, Except.pure]
  | cons a l ih =>
    rw [List.foldlM_cons, h a (by simp)]
    simp only [bind, Except.bind]
    rw [ih _ fun x hx => h x (by simp [hx])]
    simp

/-- **C134.** With one atom the names `1Si_s` … come in the order of the file, with the spilling parameter. -/
theorem C134_one_atom (t : String) (ht : t ≠ "") (hc : String → Bool) (atoms : List (ℤ × List String)) (hi : ∀ a ∈ atoms, a.1 = 1) (sp : ℝ) :
    readOrder [t] hc atoms sp = .ok (atoms.flatMap fun a =>
      (a.2.filter fun k => !hc k && k ≠ "p" && k ≠ "d" && k ≠ "f").map fun k => toString a.1 ++ t ++ "_" ++ k, sp) := by
  unfold readOrder
  rw [foldlM_append _ (names (fun i => toString i ++ t) hc) atoms []]
  · simp only [bind, Except.bind, pure, Except.pure, List.nil_append]
    congr 3
    funext a
    unfold names
    congr 1
    apply List.filter_congr
    intro k _
    simp [wanted, Bool.and_assoc]
  · intro a ha o
    obtain ⟨i, l⟩ := a
    have : i = 1 := hi _ ha
    rw [this]
    exact keyLoop_one t ht hc l o

/-- **C134, defect.** For every crystal with two or more atoms the function raises `ValueError` as soon as the file names one orbital,
because `if self.types:` asks for the truth of an array. -/
theorem C134_defect_many_atoms (types : List String) (ht : 2 ≤ types.length) (hc : String → Bool) (atoms : List (ℤ × List String))
    (h : ∃ a ∈ atoms, ∃ k ∈ a.2, hc k = false ∧ k ≠ "p" ∧ k ≠ "d" ∧ k ≠ "f") (sp : ℝ) : readOrder types hc atoms sp = .error .valueError := by
  have key : ∀ (l : List (ℤ × List String)) (o : List String), (∃ a ∈ l, ∃ k ∈ a.2, wanted hc k = true) →
      l.foldlM (fun o a => keyLoop types hc a.1 a.2 o) o = .error .valueError := by
    intro l
    induction l with
    | nil => intro o h; simp at h
    | cons a l ih =>
      intro o h
      rw [List.foldlM_cons]
      by_cases hk : ∃ k ∈ a.2, wanted hc k = true
      · rw [keyLoop_many types ht hc _ _ _ hk]
        rfl
      · rw [keyLoop_skip types hc _ _ _ fun k hkm => by
          cases hw : wanted hc k with
          | false => rfl
          | true => exact absurd ⟨k, hkm, hw⟩ hk]
        obtain ⟨x, hx, hxk⟩ := h
        rcases List.mem_cons.1 hx with rfl | hx
        · exact absurd hxk hk
        · exact ih o ⟨x, hx, hxk⟩
  unfold readOrder
  rw [key atoms [] (by
    obtain ⟨a, ha, k, hk, h1, h2, h3, h4⟩ := h
    exact ⟨a, ha, k, hk, by simp [wanted, h1, h2, h3, h4]⟩)]
  rfl

/-- **C134.** The element is looked up like `types[index-1]`: with one atom the index 0 also means this atom, every other index raises `IndexError`. -/
theorem C134_other_index (t : String) (ht : t ≠ "") (hc : String → Bool) (i : ℤ) (k : String) (hk : hc k = false ∧ k ≠ "p" ∧ k ≠ "d" ∧ k ≠ "f") (sp : ℝ) :
    (i = 0 → readOrder [t] hc [(i, [k])] sp = .ok ([toString i ++ t ++ "_" ++ k], sp)) ∧
    (i ≠ 0 → i ≠ 1 → readOrder [t] hc [(i, [k])] sp = .error .indexError) := by
  have hw : wanted hc k = true := by simp [wanted, hk]
  have h1 : truth [t] = .ok true := by simp [truth, ht]
  constructor
  · intro hi
    have h2 : pyItem [t] (i - 1) = .ok t := by
      rw [hi]
      rfl
    unfold readOrder
    simp [List.foldlM, keyLoop, hw, h1, h2, bind, Except.bind, pure, Except.pure]
  · intro hi0 hi1
    have h2 : pyItem [t] (i - 1) = .error .indexError := by
      unfold pyItem
      by_cases h : 0 ≤ i - 1
      · have hn : [t][(i - 1).toNat]? = none := by
          rw [List.getElem?_eq_none_iff]
          simp only [List.length_singleton]
          omega
        rw [if_pos h, hn]
      · rw [if_neg h, if_neg (by simp only [List.length_singleton]; omega)]
    unfold readOrder
    simp [List.foldlM, keyLoop, hw, h1, h2, bind, Except.bind]

/-- Silicon with one atom. -/
example : readOrder ["Si"] (fun k => k == "total charge") [(1, ["total charge", "s", "p", "pz"])] (1 / 100) = .ok (["1Si_s", "1Si_pz"], 1 / 100) := by
  rw [C134_one_atom "Si" (by decide) _ _ (by simp)]
  congr 2

/-- Silicon with two atoms. -/
example : readOrder ["Si", "Si"] (fun k => k == "total charge") [(1, ["total charge", "s"]), (2, ["total charge", "s"])] 0 = .error .valueError :=
  C134_defect_many_atoms _ (by simp) _ _ ⟨_, List.mem_cons_self, "s", by simp, by decide, by decide, by decide, by decide⟩ _

/-! ## `read_projections` -/

theorem pairs_printed (l : List ℂ) : pairs (printed l) = .ok l := by
  induction l with
  | nil => rfl
  | cons z l ih =>
    show pairs (z.re :: z.im :: printed l) = _
    rw [pairs, ih]
    rfl

theorem axis_nat {n i : ℕ} (h : i < n) : axis n (i : ℤ) = .ok i := by
  unfold axis
  rw [if_pos ⟨by omega, by exact_mod_cast h⟩]
  rfl

theorem axis_err {n i : ℕ} (h : n ≤ i) : axis n (i : ℤ) = .error .indexError := by
  unfold axis
  rw [if_neg (by omega), if_neg (by omega)]

theorem fill_eq {α : Type} {n : ℕ} {l : List α} (h : l.length = n) : fill n l = .ok l := by
  unfold fill
  rw [if_pos h]

theorem setRow_ok {n m i : ℕ} (hi : i < n) {row : List ℝ} (hr : row.length = m) (a : Arr2) :
    setRow n m i row a = .ok fun i' j => if i' = i then row.getD j 0 else a i' j := by
  unfold setRow
  rw [axis_nat hi, fill_eq hr]
  rfl

theorem setWfc_ok (f : ProjFile) {i : ℕ} (hi : i < f.ks) (a : Arr4) {s x : ℕ} (hs : s < f.spins) (hx : x < f.wfcs) (z : List ℂ) (hz : z.length = f.bands) :
    setWfc f i a ⟨(x : ℤ) + 1, (s : ℤ) + 1, printed z⟩ = .ok fun i' b s' x' => if i' = i ∧ s' = s ∧ x' = x then z.getD b 0 else a i' b s' x' := by
  unfold setWfc
  simp only [add_sub_cancel_right]
  rw [pairs_printed, axis_nat hi, axis_nat hs, axis_nat hx]
  simp only [bind, Except.bind]
  rw [fill_eq hz]
  rfl

theorem wfcs_ok (f : ProjFile) {i : ℕ} (hi : i < f.ks) (P : ℕ → ℕ → ℕ → ℂ) (L : List (ℕ × ℕ)) (hL : ∀ q ∈ L, q.1 < f.spins ∧ q.2 < f.wfcs) (a : Arr4) :
    ∃ c, (L.map fun q => (⟨(q.2 : ℤ) + 1, (q.1 : ℤ) + 1, printed ((List.range f.bands).map fun j => P j q.1 q.2)⟩ : Wfc)).foldlM (setWfc f i) a = .ok c ∧
      (∀ i' b s x, i' ≠ i → c i' b s x = a i' b s x) ∧
      (∀ b s x, b < f.bands → (s, x) ∈ L → c i b s x = P b s x) ∧ (∀ b s x, (s, x) ∉ L → c i b s x = a i b s x) := by
  induction L generalizing a with
  | nil => exact ⟨a, rfl, fun _ _ _ _ _ => rfl, fun _ _ _ _ h => by simp at h, fun _ _ _ _ => rfl⟩
  | cons q L ih =>
    have hq := hL q (by simp)
    have hstep := setWfc_ok f hi a hq.1 hq.2 ((List.range f.bands).map fun j => P j q.1 q.2) (by simp)
    obtain ⟨c, h1, h2, h3, h4⟩ := ih (fun r hr => hL r (by simp [hr]))
      (fun i' b s' x' => if i' = i ∧ s' = q.1 ∧ x' = q.2 then ((List.range f.bands).map fun j => P j q.1 q.2).getD b 0 else a i' b s' x')
    refine ⟨c, ?_, ?_, ?_, ?_⟩
    · rw [List.map_cons, List.foldlM_cons, hstep]
      exact h1
    · intro i' b s x hne
      rw [h2 i' b s x hne, if_neg (fun h => hne h.1)]
    · intro b s x hb hm
      by_cases hin : (s, x) ∈ L
      · exact h3 b s x hb hin
      · rcases List.mem_cons.1 hm with rfl | hm
        · rw [h4 b s x hin, if_pos ⟨rfl, rfl, rfl⟩]
          simp [hb]
        · exact absurd hm hin
    · intro b s x hm
      have hin : (s, x) ∉ L := fun h => hm (by simp [h])
      rw [h4 b s x hin, if_neg]
      rintro ⟨_, rfl, rfl⟩
      exact hm (by simp)

/-- One turn of the loop. -/
theorem kLoop_cons (f : ProjFile) (i : ℕ) (k e : List ℝ) (p : List Wfc) (ks es : List (List ℝ)) (ps : List (List Wfc)) (a b : Arr2) (c : Arr4) :
    kLoop f i (k :: ks) (e :: es) (p :: ps) (a, b, c) =
      ((setRow f.ks 3 i k a).bind fun a => (setRow f.ks f.bands i e b).bind fun b => (p.foldlM (setWfc f i) c).bind fun c =>
        kLoop f (i + 1) ks es ps (a, b, c)) := rfl

theorem kLoop_ok (c : Content) (m n b s w : ℕ) (order : ℕ → List (ℕ × ℕ)) (hord : ∀ i < m, ∀ q ∈ order i, q.1 < s ∧ q.2 < w)
    (len i : ℕ) (hlen : i + len = m) (hmn : m ≤ n) (A B : Arr2) (C : Arr4) :
    ∃ A' B' C', kLoop (c.file m n b s w order) i ((List.range' i len).map fun i => [c.k i 0, c.k i 1, c.k i 2])
        ((List.range' i len).map fun i => (List.range b).map fun j => c.e i j)
        ((List.range' i len).map fun i => (order i).map fun q => ⟨(q.2 : ℤ) + 1, (q.1 : ℤ) + 1, printed ((List.range b).map fun j => c.proj i j q.1 q.2)⟩)
        (A, B, C) = .ok (A', B', C') ∧
      (∀ i', (i' < i ∨ m ≤ i') → (∀ j, A' i' j = A i' j) ∧ (∀ j, B' i' j = B i' j) ∧ ∀ j s x, C' i' j s x = C i' j s x) ∧
      (∀ i', i ≤ i' → i' < m → (∀ j : Fin 3, A' i' j.val = c.k i' j) ∧ (∀ j < b, B' i' j = c.e i' j) ∧
        (∀ j < b, ∀ s x, (s, x) ∈ order i' → C' i' j s x = c.proj i' j s x)) := by
  induction len generalizing i A B C with
  | zero =>
    refine ⟨A, B, C, rfl, fun _ _ => ⟨fun _ => rfl, fun _ => rfl, fun _ _ _ => rfl⟩, ?_⟩
    intro i' h1 h2
    omega
  | succ len ih =>
    have hi : i < n := by omega
    have him : i < m := by omega
    obtain ⟨C1, h1, h2, h3, h4⟩ := wfcs_ok (c.file m n b s w order) (i := i) hi (fun j s x => c.proj i j s x) (order i) (hord i him) C
    obtain ⟨A', B', C', e, g1, g2⟩ := ih (i + 1) (by omega)
      (fun i' j => if i' = i then [c.k i 0, c.k i 1, c.k i 2].getD j 0 else A i' j)
      (fun i' j => if i' = i then ((List.range b).map fun j => c.e i j).getD j 0 else B i' j) C1
    refine ⟨A', B', C', ?_, ?_, ?_⟩
    · rw [List.range'_succ, List.map_cons, List.map_cons, List.map_cons, kLoop_cons]
      rw [setRow_ok (m := 3) (row := [c.k i 0, c.k i 1, c.k i 2]) (show i < (c.file m n b s w order).ks from hi) rfl,
        setRow_ok (m := (c.file m n b s w order).bands) (row := (List.range b).map fun j => c.e i j) (show i < (c.file m n b s w order).ks from hi) (by simp [Content.file])]
      simp only [Except.bind]
      have h1' : ((order i).map fun q => (⟨(q.2 : ℤ) + 1, (q.1 : ℤ) + 1, printed ((List.range b).map fun j => c.proj i j q.1 q.2)⟩ : Wfc)).foldlM
          (setWfc (c.file m n b s w order) i) C = .ok C1 := h1
      rw [h1']
      exact e
    · intro i' hi'
      have hne : i' ≠ i := by omega
      obtain ⟨k1, k2, k3⟩ := g1 i' (by omega)
      refine ⟨fun j => ?_, fun j => ?_, fun j s x => ?_⟩
      · rw [k1, if_neg hne]
      · rw [k2, if_neg hne]
      · rw [k3, h2 i' j s x hne]
    · intro i' hle hlt
      by_cases hne : i' = i
      · subst hne
        obtain ⟨k1, k2, k3⟩ := g1 i' (by omega)
        refine ⟨fun j => ?_, fun j hj => ?_, fun j hj s x hsx => ?_⟩
        · rw [k1, if_pos rfl]
          fin_cases j <;> rfl
        · rw [k2, if_pos rfl]
          simp [hj]
        · rw [k3]
          exact h3 j s x hj hsx
      · exact g2 i' (by omega) hlt

theorem flatMap_getD (n : ℕ) (f : ℕ → ℕ → ℂ) (N : ℕ) (x y : ℕ) (hx : x < N) (hy : y < n) :
    ((List.range N).flatMap fun x => (List.range n).map fun y => f x y).getD (x * n + y) 0 = f x y := by
  induction N with
  | zero => omega
  | succ N ih =>
    rw [List.range_succ, List.flatMap_append]
    have hlen : ((List.range N).flatMap fun x => (List.range n).map fun y => f x y).length = N * n := by
      simp [List.length_flatMap]
    by_cases hN : x < N
    · have hlt : x * n + y < N * n := by
        calc x * n + y < x * n + n := by omega
          _ = (x + 1) * n := by ring
          _ ≤ N * n := Nat.mul_le_mul_right n hN
      rw [List.getD_eq_getElem?_getD, List.getElem?_append_left (by rw [hlen]; exact hlt), ← List.getD_eq_getElem?_getD]
      exact ih hN
    · have hxN : x = N := by omega
      subst hxN
      rw [List.getD_eq_getElem?_getD, List.getElem?_append_right (by rw [hlen]; omega), hlen]
      simp [hy]

theorem overlap_ok (c : Content) (o : ℕ → ℕ → ℕ → ℂ) (m n b s w : ℕ) (order : ℕ → List (ℕ × ℕ)) (len i : ℕ) (hlen : i + len = m) (hmn : m ≤ n) (O : Arr3) :
    ∃ O', overlapLoop (c.file m n b s w order) i
        ((List.range' i len).map fun i => printed ((List.range (s * w)).flatMap fun x => (List.range (s * w)).map fun y => o i x y)) O = .ok O' ∧
      (∀ i', (i' < i ∨ m ≤ i') → ∀ x y, O' i' x y = O i' x y) ∧
      (∀ i', i ≤ i' → i' < m → ∀ x y, x < s * w → y < s * w → O' i' x y = O i' x y + o i' x y) := by
  induction len generalizing i O with
  | zero => exact ⟨O, rfl, fun _ _ _ _ => rfl, fun i' h1 h2 => by omega⟩
  | succ len ih =>
    have hi : i < n := by omega
    obtain ⟨O', e, g1, g2⟩ := ih (i + 1) (by omega) (fun i' x y =>
      if i' = i ∧ x < s * w ∧ y < s * w then O i' x y +
        ((List.range (s * w)).flatMap fun x => (List.range (s * w)).map fun y => o i x y).getD (x * (s * w) + y) 0 else O i' x y)
    refine ⟨O', ?_, ?_, ?_⟩
    · rw [List.range'_succ, List.map_cons, overlapLoop, pairs_printed]
      simp only [bind, Except.bind]
      rw [axis_nat (show i < (c.file m n b s w order).ks from hi)]
      simp only
      rw [fill_eq (by simp [Content.file, List.length_flatMap])]
      exact e
    · intro i' hi' x y
      rw [g1 i' (by omega), if_neg (by omega)]
    · intro i' hle hlt x y hx hy
      by_cases hne : i' = i
      · subst hne
        rw [g1 i' (by omega), if_pos ⟨rfl, hx, hy⟩, flatMap_getD _ _ _ _ _ hx hy]
      · rw [g2 i' (by omega) hlt x y hx hy, if_neg (by omega)]

/-- **C135.** For every content written in the documented layout, with at most as many k-points as the header says and the wave functions of
every k-point in any order, `read_projections` returns exactly the content (energies in eV); rows of missing k-points are zero. -/
theorem C135_read_projections (ry : ℝ) (c : Content) (m n b s w : ℕ) (hmn : m ≤ n) (order : ℕ → List (ℕ × ℕ))
    (hord : ∀ i < m, ∀ s' x', (s', x') ∈ order i ↔ s' < s ∧ x' < w) :
    ∃ r, readProjections ry (c.file m n b s w order) = .ok r ∧
      (∀ i < m, (∀ j : Fin 3, r.k i j.val = c.k i j) ∧ (∀ j < b, r.bands i j = c.e i j * ry) ∧
        (∀ j < b, ∀ s' < s, ∀ x' < w, r.proj i j s' x' = c.proj i j s' x')) ∧
      (∀ i, m ≤ i → i < n → (∀ j, r.k i j = 0) ∧ (∀ j, r.bands i j = 0) ∧ ∀ j s' x', r.proj i j s' x' = 0) ∧
      (∀ o, c.overlap = some o → 0 < m → ∃ O, r.overlaps = some O ∧ ∀ i < m, ∀ x < s * w, ∀ y < s * w, O i x y = o i x y) ∧
      (c.overlap = none → r.overlaps = none) ∧ r.fermi = c.fermi * ry ∧ r.electrons = c.electrons := by
  obtain ⟨A, B, C, e, g1, g2⟩ := kLoop_ok c m n b s w order (fun i hi q hq => (hord i hi q.1 q.2).1 hq) m 0 (by omega) hmn
    (fun _ _ => 0) (fun _ _ => 0) (fun _ _ _ _ => 0)
  rw [← List.range_eq_range'] at e
  have e' : kLoop (c.file m n b s w order) 0 (c.file m n b s w order).kList (c.file m n b s w order).eList (c.file m n b s w order).projList
      (fun _ _ => 0, fun _ _ => 0, fun _ _ _ _ => 0) = .ok (A, B, C) := e
  have hrows : (∀ i < m, (∀ j : Fin 3, A i j.val = c.k i j) ∧ (∀ j < b, B i j * ry = c.e i j * ry) ∧
        (∀ j < b, ∀ s' < s, ∀ x' < w, C i j s' x' = c.proj i j s' x')) ∧
      (∀ i, m ≤ i → i < n → (∀ j, A i j = 0) ∧ (∀ j, B i j * ry = 0) ∧ ∀ j s' x', C i j s' x' = 0) := by
    refine ⟨?_, ?_⟩
    · intro i hi
      obtain ⟨k1, k2, k3⟩ := g2 i (by omega) hi
      exact ⟨k1, fun j hj => by rw [k2 j hj], fun j hj s' hs x' hx => k3 j hj s' x' ((hord i hi s' x').2 ⟨hs, hx⟩)⟩
    · intro i hi _
      obtain ⟨k1, k2, k3⟩ := g1 i (Or.inr hi)
      exact ⟨k1, fun j => by rw [k2 j, zero_mul], k3⟩
  unfold readProjections
  rw [e']
  simp only [bind, Except.bind]
  by_cases hov : (c.file m n b s w order).overlapList = []
  · rw [if_neg (not_not.2 hov)]
    refine ⟨_, rfl, hrows.1, hrows.2, ?_, fun _ => rfl, rfl, rfl⟩
    intro o ho hm
    exfalso
    simp only [Content.file, ho] at hov
    rw [List.map_eq_nil_iff, List.range_eq_nil] at hov
    omega
  · rw [if_pos hov]
    cases ho : c.overlap with
    | none =>
      exfalso
      exact hov (by simp [Content.file, ho])
    | some o =>
      obtain ⟨O, e2, q1, q2⟩ := overlap_ok c o m n b s w order m 0 (by omega) hmn (fun _ _ _ => 0)
      rw [← List.range_eq_range'] at e2
      have e2' : overlapLoop (c.file m n b s w order) 0 (c.file m n b s w order).overlapList (fun _ _ _ => 0) = .ok O := by
        have : (c.file m n b s w order).overlapList = (List.range m).map fun i =>
            printed ((List.range (s * w)).flatMap fun x => (List.range (s * w)).map fun y => o i x y) := by
          simp only [Content.file, ho]
        rw [this]
        exact e2
      rw [e2']
      refine ⟨_, rfl, hrows.1, hrows.2, ?_, by simp, rfl, rfl⟩
      intro o' ho' _
      obtain rfl : o = o' := by simpa using ho'
      refine ⟨O, rfl, fun i hi x hx y hy => ?_⟩
      rw [q2 i (by omega) hi x y hx hy, zero_add]

/-- **C135.** With more k-points than the header says the function raises `IndexError`. -/
theorem C135_too_many (ry : ℝ) (c : Content) (m n b s w : ℕ) (hmn : n < m) (order : ℕ → List (ℕ × ℕ))
    (hord : ∀ i < m, ∀ q ∈ order i, q.1 < s ∧ q.2 < w) : readProjections ry (c.file m n b s w order) = .error .indexError := by
  have key : ∀ (len i : ℕ) (A B : Arr2) (C : Arr4), i + len = m → i ≤ n →
      kLoop (c.file m n b s w order) i ((List.range' i len).map fun i => [c.k i 0, c.k i 1, c.k i 2])
        ((List.range' i len).map fun i => (List.range b).map fun j => c.e i j)
        ((List.range' i len).map fun i => (order i).map fun q => ⟨(q.2 : ℤ) + 1, (q.1 : ℤ) + 1, printed ((List.range b).map fun j => c.proj i j q.1 q.2)⟩)
        (A, B, C) = .error .indexError := by
    intro len
    induction len with
    | zero => intro i A B C h1 h2; omega
    | succ len ih =>
      intro i A B C h1 h2
      rw [List.range'_succ, List.map_cons, List.map_cons, List.map_cons, kLoop_cons]
      by_cases hi : i < n
      · rw [setRow_ok (m := 3) (row := [c.k i 0, c.k i 1, c.k i 2]) (show i < (c.file m n b s w order).ks from hi) rfl,
          setRow_ok (m := (c.file m n b s w order).bands) (row := (List.range b).map fun j => c.e i j) (show i < (c.file m n b s w order).ks from hi) (by simp [Content.file])]
        obtain ⟨C1, e1, _⟩ := wfcs_ok (c.file m n b s w order) (i := i) hi (fun j s x => c.proj i j s x) (order i) (hord i (by omega)) C
        have h1' : ((order i).map fun q => (⟨(q.2 : ℤ) + 1, (q.1 : ℤ) + 1, printed ((List.range b).map fun j => c.proj i j q.1 q.2)⟩ : Wfc)).foldlM
            (setWfc (c.file m n b s w order) i) C = .ok C1 := e1
        simp only [Except.bind]
        rw [h1']
        exact ih (i + 1) _ _ _ (by omega) (by omega)
      · unfold setRow
        rw [axis_err (show (c.file m n b s w order).ks ≤ i from not_lt.1 hi)]
        rfl
  have e := key m 0 (fun _ _ => 0) (fun _ _ => 0) (fun _ _ _ _ => 0) (by omega) (by omega)
  rw [← List.range_eq_range'] at e
  have e' : kLoop (c.file m n b s w order) 0 (c.file m n b s w order).kList (c.file m n b s w order).eList (c.file m n b s w order).projList
      (fun _ _ => 0, fun _ _ => 0, fun _ _ _ _ => 0) = .error .indexError := e
  unfold readProjections
  rw [e']
  rfl

/-- **C135.** A k-point which has not three coordinates, or a k-point whose number of energies is not that of the header, raises `ValueError` (a single number is
taken for all). -/
theorem C135_wrong_length (ry : ℝ) (f : ProjFile) (hks : 0 < f.ks) (k e : List ℝ) (p : List Wfc) (ks es : List (List ℝ)) (ps : List (List Wfc))
    (hk : f.kList = k :: ks) (he : f.eList = e :: es) (hp : f.projList = p :: ps)
    (h : (k.length ≠ 3 ∧ k.length ≠ 1) ∨ (k.length = 3 ∧ e.length ≠ f.bands ∧ e.length ≠ 1)) : readProjections ry f = .error .valueError := by
  have hfill : ∀ (n : ℕ) (l : List ℝ), l.length ≠ n → l.length ≠ 1 → fill n l = .error .valueError := by
    intro n l h1 h2
    unfold fill
    rw [if_neg h1]
    match l, h2 with
    | [], _ => rfl
    | [_], h2 => exact absurd rfl h2
    | _ :: _ :: _, _ => rfl
  have hax : axis f.ks ((0 : ℕ) : ℤ) = .ok 0 := axis_nat hks
  have hloop : kLoop f 0 f.kList f.eList f.projList (fun _ _ => 0, fun _ _ => 0, fun _ _ _ _ => 0) = .error .valueError := by
    rw [hk, he, hp, kLoop_cons]
    rcases h with ⟨h1, h2⟩ | ⟨h1, h2, h3⟩
    · rw [setRow, hax]
      simp only [bind, Except.bind]
      rw [hfill 3 k h1 h2]
    · rw [setRow_ok hks h1]
      simp only [Except.bind]
      rw [setRow, hax]
      simp only [bind, Except.bind]
      rw [hfill f.bands e h2 h3]
  unfold readProjections
  rw [hloop]
  rfl

example : readProjections 1 ⟨0, 8, 3, 1, 1, 1, [[0, 0, 0]], [[1, 2]], [[]], []⟩ = .error .valueError :=
  C135_wrong_length 1 _ (by simp) [0, 0, 0] [1, 2] [] [] [] [] rfl rfl rfl (Or.inr ⟨rfl, by simp, by simp⟩)

/-- Two k-points, three bands, one spin, two wave functions in the order 1, 0. -/
example : ∃ r, readProjections 2 ((⟨fun i j => i + j.val, fun i j => i + 10 * j, fun i j _ x => ⟨i, j + 10 * x⟩, none, 1, 8⟩ : Content).file 2 2 3 1 2
    fun _ => [(0, 1), (0, 0)]) = .ok r ∧ r.proj 1 2 0 1 = ⟨1, 12⟩ ∧ r.bands 1 2 = 42 := by
  obtain ⟨r, h, h1, _⟩ := C135_read_projections 2 (⟨fun i j => i + j.val, fun i j => i + 10 * j, fun i j _ x => ⟨i, j + 10 * x⟩, none, 1, 8⟩ : Content) 2 2 3 1 2 le_rfl
    (fun _ => [(0, 1), (0, 0)]) (by
      intro i hi s x
      simp only [List.mem_cons, Prod.mk.injEq, List.not_mem_nil, or_false]
      omega)
  refine ⟨r, h, ?_, ?_⟩
  · rw [(h1 1 (by omega)).2.2 2 (by omega) 0 (by omega) 1 (by omega)]
    norm_num
  · rw [(h1 1 (by omega)).2.1 2 (by omega)]
    norm_num

/-! ## `read_bandx_raw` -/

theorem reshape_rows {width : ℕ} (hw : 0 < width) (rows : List (List ℝ)) (hr : ∀ r ∈ rows, r.length = width) (fuel : ℕ) (hf : rows.length ≤ fuel) :
    reshape width fuel rows.flatten = .ok rows := by
  induction rows generalizing fuel with
  | nil => cases fuel <;> rfl
  | cons r rows ih =>
    cases fuel with
    | zero => simp at hf
    | succ fuel =>
      have hlen := hr r (by simp)
      cases hr' : r with
      | nil => rw [hr'] at hlen; simp at hlen; omega
      | cons x t =>
        have ht : t.length + 1 = width := by rw [← hlen, hr']; rfl
        have e1 : ((x :: t) :: rows).flatten = x :: (t ++ rows.flatten) := by simp
        rw [e1, reshape, if_neg (by simp; omega)]
        have e2 : (x :: (t ++ rows.flatten)).drop width = rows.flatten := by
          rw [← ht, List.drop_succ_cons, List.drop_left]
        have e3 : (x :: (t ++ rows.flatten)).take width = x :: t := by
          rw [← ht, List.take_succ_cons, List.take_left]
        rw [e2, e3, ih (fun q hq => hr q (by simp [hq])) fuel (by simp at hf; omega)]
        rfl

theorem reshape_err {width : ℕ} (hw : 0 < width) (fuel : ℕ) (l : List ℝ) (hf : l.length ≤ fuel) (hl : l.length % width ≠ 0) :
    reshape width fuel l = .error .valueError := by
  induction fuel generalizing l with
  | zero =>
    have : l.length = 0 := by omega
    rw [this] at hl
    simp at hl
  | succ fuel ih =>
    cases l with
    | nil => simp at hl
    | cons x l =>
      rw [reshape]
      by_cases hlt : (x :: l).length < width
      · rw [if_pos hlt]
      · rw [if_neg hlt]
        have hd : ((x :: l).drop width).length = (x :: l).length - width := List.length_drop
        rw [ih ((x :: l).drop width) (by rw [hd]; omega) (by
          rw [hd]
          rw [← Nat.mod_eq_sub_mod (by omega)]
          exact hl)]
        rfl

theorem foldl_flatten (lines : List (List ℝ)) (a : List ℝ) : lines.foldl (fun a l => a ++ l) a = a ++ lines.flatten := by
  induction lines generalizing a with
  | nil => simp
  | cons x l ih => rw [List.foldl_cons, ih]; simp

/-- **C136.** `read_bandx_raw` returns the k-points and bands of the file, however their numbers are broken into lines. -/
theorem C136_read_bandx_raw (nb : ℕ) (data : List (List ℝ × List ℝ)) (hd : ∀ r ∈ data, r.1.length = 3 ∧ r.2.length = nb) (lines : List (List ℝ))
    (hl : lines.flatten = data.flatMap fun r => r.1 ++ r.2) :
    readBandxRaw (some nb) lines = .ok (data.map Prod.fst, data.map Prod.snd) := by
  unfold readBandxRaw
  simp only
  rw [if_neg (by omega), foldl_flatten, List.nil_append, hl]
  have hw : ((nb : ℤ) + 3).toNat = nb + 3 := by omega
  have e : (data.flatMap fun r => r.1 ++ r.2) = (data.map fun r => r.1 ++ r.2).flatten := List.flatMap_def
  have hrows : ∀ r ∈ data.map (fun r => r.1 ++ r.2), r.length = nb + 3 := by
    intro r hr
    obtain ⟨q, hq, rfl⟩ := List.mem_map.1 hr
    rw [List.length_append, (hd q hq).1, (hd q hq).2]
    omega
  have hfuel : (data.map fun r => r.1 ++ r.2).length ≤ ((data.map fun r => r.1 ++ r.2).flatten).length := by
    rw [List.length_flatten]
    have : ∀ L : List (List ℝ), (∀ r ∈ L, r.length = nb + 3) → L.length ≤ (L.map List.length).sum := by
      intro L
      induction L with
      | nil => intro _; simp
      | cons r L ih =>
        intro h
        have h1 := ih fun q hq => h q (by simp [hq])
        have h2 := h r (by simp)
        simp only [List.length_cons, List.map_cons, List.sum_cons]
        omega
    exact this _ hrows
  rw [e, hw, reshape_rows (by omega) _ hrows _ hfuel]
  simp only [bind, Except.bind, pure, Except.pure, List.map_map]
  congr 2
  · apply List.map_congr_left
    intro r hr
    show (r.1 ++ r.2).take 3 = r.1
    rw [← (hd r hr).1, List.take_left]
  · apply List.map_congr_left
    intro r hr
    show (r.1 ++ r.2).drop 3 = r.2
    rw [← (hd r hr).1, List.drop_left]

/-- **C136.** A file whose numbers do not fill all rows raises `ValueError`; one without `nbnd=` raises `IndexError`. -/
theorem C136_errors (nb : ℕ) (lines : List (List ℝ)) :
    readBandxRaw none lines = .error .indexError ∧
    (lines.flatten.length % (nb + 3) ≠ 0 → readBandxRaw (some nb) lines = .error .valueError) := by
  refine ⟨rfl, fun h => ?_⟩
  unfold readBandxRaw
  simp only
  rw [if_neg (by omega), foldl_flatten, List.nil_append]
  have hw : ((nb : ℤ) + 3).toNat = nb + 3 := by omega
  rw [hw, reshape_err (by omega) _ _ le_rfl h]
  rfl

/-- Two points with two bands, broken in the middle of a point. -/
example : readBandxRaw (some 2) [[0, 0, 0, 1], [], [2, 1, 0, 0, 3, 4]] = .ok ([[0, 0, 0], [1, 0, 0]], [[1, 2], [3, 4]]) :=
  C136_read_bandx_raw 2 [([0, 0, 0], [1, 2]), ([1, 0, 0], [3, 4])] (by simp) _ (by simp)

example : readBandxRaw (some 2) [[0, 0, 0, 1]] = .error .valueError := (C136_errors 2 _).2 (by simp)

/-! ## Valence electrons and cutoff -/

theorem subset_ok (pp : String → Option Pseudo) (types : List String) (f : String → Pseudo) (h : ∀ t ∈ types, pp t = some (f t)) :
    ∃ r, subset pp types = .ok r ∧ (∀ t, t ∈ types ↔ (t, f t) ∈ r) ∧ (∀ x ∈ r, x.2 = f x.1) ∧ (r = [] ↔ types = []) := by
  induction types with
  | nil => exact ⟨[], rfl, by simp, by simp, by simp⟩
  | cons t l ih =>
    obtain ⟨r, e, h1, h2, h3⟩ := ih fun x hx => h x (by simp [hx])
    refine ⟨(t, f t) :: r.filter fun x => x.1 ≠ t, ?_, ?_, ?_, by simp⟩
    · rw [subset, h t (by simp)]
      simp only
      rw [e]
      rfl
    · intro x
      by_cases hx : x = t
      · subst hx
        simp
      · simp [hx, h1 x]
    · intro x hx
      rcases List.mem_cons.1 hx with rfl | hx
      · rfl
      · exact h2 x (List.mem_filter.1 hx).1

theorem subset_err (pp : String → Option Pseudo) (types : List String) (h : ∃ t ∈ types, pp t = none) : subset pp types = .error .keyError := by
  induction types with
  | nil => simp at h
  | cons t l ih =>
    rw [subset]
    cases hp : pp t with
    | none => rfl
    | some p =>
      simp only
      rw [ih (by
        obtain ⟨x, hx, hn⟩ := h
        rcases List.mem_cons.1 hx with rfl | hx
        · rw [hp] at hn; simp at hn
        · exact ⟨x, hx, hn⟩)]
      rfl

theorem valenceLoop_ok (z : String → ℤ) (r : List (String × Pseudo)) (h : ∀ x ∈ r, x.2.zValence = z x.1) :
    valenceLoop r = .ok (r.map fun x => (x.1, z x.1)) := by
  induction r with
  | nil => rfl
  | cons x r ih =>
    obtain ⟨t, p⟩ := x
    have hz : p.zValence = z t := h (t, p) (by simp)
    rw [valenceLoop, if_neg (by rw [hz]; simp), ih fun y hy => h y (by simp [hy])]
    simp only [Except.map, hz, Rat.num_intCast, List.map_cons]

theorem valenceLoop_err (r : List (String × Pseudo)) (h : ∃ x ∈ r, x.2.zValence.den ≠ 1) : valenceLoop r = .error .assertionError := by
  induction r with
  | nil => simp at h
  | cons x r ih =>
    obtain ⟨t, p⟩ := x
    rw [valenceLoop]
    by_cases hp : p.zValence.den = 1
    · rw [if_neg (not_not.2 hp), ih (by
        obtain ⟨y, hy, hn⟩ := h
        rcases List.mem_cons.1 hy with rfl | hy
        · exact absurd hp hn
        · exact ⟨y, hy, hn⟩)]
      rfl
    · rw [if_pos hp]

theorem lookup_map (z : String → ℤ) (r : List (String × Pseudo)) (t : String) (h : ∃ p, (t, p) ∈ r) : (r.map fun x => (x.1, z x.1)).lookup t = some (z t) := by
  induction r with
  | nil => simp at h
  | cons x r ih =>
    rw [List.map_cons, List.lookup_cons]
    by_cases hx : t = x.1
    · subst hx
      simp
    · have hb : (t == x.1) = false := by simpa using hx
      rw [hb]
      apply ih
      obtain ⟨p, hp⟩ := h
      rcases List.mem_cons.1 hp with rfl | hp
      · exact absurd rfl hx
      · exact ⟨p, hp⟩

/-- **C137.** `read_valence_electrons` is the sum of the valences over all atoms (repeated types count every time). -/
theorem C137_valence (pp : String → Option Pseudo) (types : List String) (z : String → ℤ)
    (h : ∀ t ∈ types, ∃ p, pp t = some p ∧ p.zValence = z t) : readValence pp types = .ok (types.map z).sum := by
  classical
  obtain ⟨r, e, h1, h2, _⟩ := subset_ok pp types (fun t => (pp t).getD ⟨0, 0⟩) (fun t ht => by
    obtain ⟨p, hp, _⟩ := h t ht
    rw [hp]; rfl)
  have hz : ∀ x ∈ r, x.2.zValence = z x.1 := by
    intro x hx
    have hx2 := h2 x hx
    have hxt : x.1 ∈ types := by
      rw [h1 x.1, ← hx2]
      exact hx
    obtain ⟨p, hp, hpz⟩ := h x.1 hxt
    rw [hx2, hp]
    exact hpz
  have hfold : ∀ (l : List String) (a : ℤ), (∀ t ∈ l, t ∈ types) →
      l.foldlM (addValence (r.map fun x => (x.1, z x.1))) a =
        .ok (a + (l.map z).sum) := by
    intro l
    induction l with
    | nil => intro a _; simp [pure, Except.pure]
    | cons t l ih =>
      intro a hl
      rw [List.foldlM_cons, addValence, lookup_map z r t ⟨_, (h1 t).1 (hl t (by simp))⟩]
      simp only [bind, Except.bind]
      rw [ih _ fun x hx => hl x (by simp [hx])]
      simp [add_assoc]
  unfold readValence
  rw [e]
  simp only [bind, Except.bind]
  rw [valenceLoop_ok z r hz]
  simp only
  rw [hfold types 0 fun t ht => ht, zero_add]

/-- **C137.** Errors: `KeyError` for a type without pseudo potential, otherwise `AssertionError` for a fractional valence. -/
theorem C137_valence_errors (pp : String → Option Pseudo) (types : List String) :
    ((∃ t ∈ types, pp t = none) → readValence pp types = .error .keyError ∧ cutoff pp types = .error .keyError) ∧
    ((∀ t ∈ types, (pp t).isSome) → (∃ t ∈ types, ∀ p, pp t = some p → p.zValence.den ≠ 1) → readValence pp types = .error .assertionError) := by
  constructor
  · intro h
    unfold readValence cutoff
    rw [subset_err pp types h]
    exact ⟨rfl, rfl⟩
  · intro h hf
    obtain ⟨r, e, h1, h2, _⟩ := subset_ok pp types (fun t => (pp t).getD ⟨0, 0⟩) (fun t ht => by
      obtain ⟨p, hp⟩ := Option.isSome_iff_exists.1 (h t ht)
      rw [hp]; rfl)
    unfold readValence
    rw [e]
    simp only [bind, Except.bind]
    rw [valenceLoop_err r (by
      obtain ⟨t, ht, hd⟩ := hf
      obtain ⟨p, hp⟩ := Option.isSome_iff_exists.1 (h t ht)
      refine ⟨_, (h1 t).1 ht, ?_⟩
      simp only [hp, Option.getD_some]
      exact hd p hp)]

theorem foldl_max (l : List ℚ) (x : ℚ) : (l.foldl max x = x ∨ l.foldl max x ∈ l) ∧ x ≤ l.foldl max x ∧ ∀ y ∈ l, y ≤ l.foldl max x := by
  induction l generalizing x with
  | nil => simp
  | cons a l ih =>
    obtain ⟨h1, h2, h3⟩ := ih (max x a)
    rw [List.foldl_cons]
    refine ⟨?_, le_trans (le_max_left _ _) h2, ?_⟩
    · rcases h1 with h1 | h1
      · rcases max_choice x a with h | h
        · left; rw [h1, h]
        · right; rw [h1, h]; simp
      · right; simp [h1]
    · intro y hy
      rcases List.mem_cons.1 hy with rfl | hy
      · exact le_trans (le_max_right _ _) h2
      · exact h3 y hy

/-- **C137.** The cutoff set is the largest suggested cutoff of the atoms of the cell; without atoms `ValueError`. -/
theorem C137_cutoff (pp : String → Option Pseudo) (types : List String) (h : ∀ t ∈ types, (pp t).isSome) :
    (types = [] → cutoff pp types = .error .valueError) ∧
    (types ≠ [] → ∃ E, cutoff pp types = .ok E ∧ (∃ t ∈ types, ∃ p, pp t = some p ∧ p.wfcCutoff = E) ∧
      ∀ t ∈ types, ∀ p, pp t = some p → p.wfcCutoff ≤ E) := by
  obtain ⟨r, e, h1, h2, h3⟩ := subset_ok pp types (fun t => (pp t).getD ⟨0, 0⟩) (fun t ht => by
    obtain ⟨p, hp⟩ := Option.isSome_iff_exists.1 (h t ht)
    rw [hp]; rfl)
  constructor
  · intro ht
    rw [ht]
    rfl
  · intro ht
    have hr : r ≠ [] := fun hr => ht (h3.1 hr)
    have hmem : ∀ x ∈ r, x.1 ∈ types ∧ pp x.1 = some x.2 := by
      intro x hx
      have hx2 := h2 x hx
      have hxt : x.1 ∈ types := by
        rw [h1 x.1, ← hx2]
        exact hx
      obtain ⟨p, hp⟩ := Option.isSome_iff_exists.1 (h x.1 hxt)
      refine ⟨hxt, ?_⟩
      rw [hx2, hp]
      rfl
    obtain ⟨x, l, rfl⟩ := List.exists_cons_of_ne_nil hr
    obtain ⟨k1, k2, k3⟩ := foldl_max (l.map fun x => x.2.wfcCutoff) x.2.wfcCutoff
    refine ⟨(l.map fun x => x.2.wfcCutoff).foldl max x.2.wfcCutoff, ?_, ?_, ?_⟩
    rotate_left
    rotate_left
    · intro t ht p hp
      have hin := (h1 t).1 ht
      rw [hp] at hin
      rcases List.mem_cons.1 hin with hin | hin
      · rw [← hin] at k2 ⊢
        exact k2
      · exact k3 _ (List.mem_map.2 ⟨_, hin, rfl⟩)
    · unfold cutoff
      rw [e]
      rfl
    · rcases k1 with k1 | k1
      · rw [k1]
        exact ⟨x.1, (hmem x (by simp)).1, x.2, (hmem x (by simp)).2, rfl⟩
      · obtain ⟨y, hy, hy2⟩ := List.mem_map.1 k1
        exact ⟨y.1, (hmem y (by simp [hy])).1, y.2, (hmem y (by simp [hy])).2, hy2⟩

/-- GaAs with two gallium atoms. -/
example : readValence (fun t => if t = "Ga" then some ⟨13, 70⟩ else if t = "As" then some ⟨5, 40⟩ else none) ["Ga", "As", "Ga"] = .ok 31 := by
  rw [C137_valence _ _ (fun t => if t = "Ga" then 13 else 5) (by
    intro t ht
    simp only [List.mem_cons, List.not_mem_nil, or_false] at ht
    rcases ht with rfl | rfl | rfl <;> simp)]
  rfl

example : ∃ E, cutoff (fun t => if t = "Ga" then some ⟨13, 70⟩ else some ⟨5, 40⟩) ["As", "Ga"] = .ok E ∧ 70 ≤ E := by
  obtain ⟨E, h, _, h2⟩ := (C137_cutoff (fun t => if t = "Ga" then some ⟨13, 70⟩ else some ⟨5, 40⟩) ["As", "Ga"] (by
    intro t ht
    by_cases h : t = "Ga" <;> simp [h])).2 (by simp)
  exact ⟨E, h, h2 "Ga" (by simp) ⟨13, 70⟩ (by simp)⟩

example : readValence (fun _ => none) ["Xx"] = .error .keyError := ((C137_valence_errors (fun _ => none) ["Xx"]).1 ⟨"Xx", by simp, rfl⟩).1

end TB.PropsQeRead
