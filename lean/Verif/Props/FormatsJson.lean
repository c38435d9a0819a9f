import Verif.Model.Formats
import Verif.Props.Fourier
import Mathlib.Data.List.GetD
import Mathlib.Data.Fintype.Fin
import Mathlib.Data.List.FinRange
import Mathlib.Tactic.Ring
import Mathlib.Tactic.NormNum

/-!
# C31: saving and loading models as JSON
-/

set_option linter.unusedSectionVars false

namespace TB.Fmt

variable {K : Type} [Field K] [LinearOrder K] [IsStrictOrderedRing K] {b : ℕ}

/-! ## Specification -/

/-- `x'` is `x`, with zero in place of numbers below `10⁻¹⁴` in magnitude. -/
def Spec.Rounded (x x' : K) : Prop := (|x| < 1 / 10 ^ 14 → x' = 0) ∧ (1 / 10 ^ 14 ≤ |x| → x' = x)

/-- The saved neighbours with their matrices, both parts of every entry rounded. -/
def Spec.Saved (neighbors : List (List K)) (params : List (Fin b → Fin b → Cx K)) (l : List (List K × (ℕ → ℕ → Cx K))) : Prop :=
  l.map Prod.fst = neighbors ∧ l.length = params.length ∧
    ∀ p, (hl : p < l.length) → (hp : p < params.length) → ∀ i j : Fin b,
      Spec.Rounded (params[p] i j).1 ((l[p]).2 i j).1 ∧ Spec.Rounded (params[p] i j).2 ((l[p]).2 i j).2

/-- Square of the length of a neighbour. -/
def Spec.normSq (r : List K) : K := (r.map fun x => x ^ 2).sum

/-- Contract of sorting by length. -/
def Spec.IsSortJ (sort : List (List K × (ℕ → ℕ → Cx K)) → List (List K × (ℕ → ℕ → Cx K))) : Prop :=
  ∀ l, (sort l).Perm l ∧ (sort l).Pairwise fun x y => Spec.normSq x.1 ≤ Spec.normSq y.1

/-! ## Lemmas -/

theorem flatten_length {V : Type} (w : ℕ) (L : List (List V)) (h : ∀ x ∈ L, x.length = w) : L.flatten.length = L.length * w := by
  induction L with
  | nil => simp
  | cons x L ih =>
    rw [List.flatten_cons, List.length_append, h x (by simp), ih fun y hy => h y (List.mem_cons_of_mem _ hy), List.length_cons]
    ring

theorem flatten_getElem? {V : Type} (w : ℕ) (L : List (List V)) (h : ∀ x ∈ L, x.length = w) (q r : ℕ) (hr : r < w) :
    L.flatten[q * w + r]? = (L[q]?).bind fun x => x[r]? := by
  induction L generalizing q with
  | nil => simp
  | cons x L ih =>
    have hx := h x (by simp)
    rw [List.flatten_cons]
    cases q with
    | zero =>
      rw [Nat.zero_mul, Nat.zero_add, List.getElem?_append_left (by omega)]
      rfl
    | succ q =>
      have e : (q + 1) * w + r = x.length + (q * w + r) := by rw [hx]; ring
      rw [e, List.getElem?_append_right (by omega), Nat.add_sub_cancel_left, ih (fun y hy => h y (List.mem_cons_of_mem _ hy))]
      rfl

theorem flat_eq {V : Type} (h : Fin b → Fin b → V) : flat h = ((List.finRange b).map fun i => (List.finRange b).map fun j => h i j).flatten := by
  unfold flat
  rw [List.flatMap_def]

theorem flat_length {V : Type} (h : Fin b → Fin b → V) : (flat h).length = b * b := by
  rw [flat_eq, flatten_length b]
  · simp
  · intro x hx
    obtain ⟨i, -, rfl⟩ := List.mem_map.1 hx
    simp

theorem flat_getElem? {V : Type} (h : Fin b → Fin b → V) (i j : Fin b) : (flat h)[(i : ℕ) * b + j]? = some (h i j) := by
  rw [flat_eq, flatten_getElem? b _ _ _ _ j.2]
  · simp
  · intro x hx
    obtain ⟨i, -, rfl⟩ := List.mem_map.1 hx
    simp

/-- The numbers in the file. -/
theorem saved_entry (params : List (Fin b → Fin b → Cx K)) (p : ℕ) (hp : p < params.length) (i j : Fin b) (c : ℕ) (hc : c < 2) :
    entry (params.map fun h => (flat h).map fun v => [(clean v).1, (clean v).2]).flatten.flatten b 2 p i j c =
      if c = 0 then (clean (params[p] i j)).1 else (clean (params[p] i j)).2 := by
  unfold entry
  rw [List.getD_eq_getElem?_getD, flatten_getElem? 2 _ ?_ _ _ hc]
  swap
  · intro x hx
    obtain ⟨y, hy, hx⟩ := List.mem_flatten.1 hx
    obtain ⟨h, -, rfl⟩ := List.mem_map.1 hy
    obtain ⟨v, -, rfl⟩ := List.mem_map.1 hx
    rfl
  have e : (p * b + (i : ℕ)) * b + j = p * (b * b) + ((i : ℕ) * b + j) := by ring
  have hlt : (i : ℕ) * b + j < b * b := by
    calc (i : ℕ) * b + j < i * b + b := by have := j.2; omega
      _ = (i + 1) * b := by ring
      _ ≤ b * b := Nat.mul_le_mul_right _ i.2
  rw [e, flatten_getElem? (b * b) _ ?_ _ _ hlt]
  swap
  · intro x hx
    obtain ⟨h, -, rfl⟩ := List.mem_map.1 hx
    rw [List.length_map, flat_length]
  rw [List.getElem?_map, List.getElem?_eq_getElem hp]
  simp only [Option.map_some, Option.bind_some]
  rw [List.getElem?_map, flat_getElem?]
  simp only [Option.map_some, Option.bind_some]
  have : c = 0 ∨ c = 1 := by omega
  rcases this with rfl | rfl <;> rfl

theorem clean_rounded (z : Cx K) : Spec.Rounded z.1 (clean z).1 ∧ Spec.Rounded z.2 (clean z).2 := by
  unfold clean Spec.Rounded
  refine ⟨⟨fun h => if_pos h, fun h => if_neg (not_lt.2 h)⟩, ⟨fun h => if_pos h, fun h => if_neg (not_lt.2 h)⟩⟩

theorem saved_length (params : List (Fin b → Fin b → Cx K)) :
    (params.map fun h => (flat h).map fun v => [(clean v).1, (clean v).2]).flatten.flatten.length = params.length * (b * b) * 2 := by
  rw [flatten_length 2, flatten_length (b * b)]
  · simp
  · intro x hx
    obtain ⟨h, -, rfl⟩ := List.mem_map.1 hx
    rw [List.length_map, flat_length]
  · intro x hx
    obtain ⟨y, hy, hx⟩ := List.mem_flatten.1 hx
    obtain ⟨h, -, rfl⟩ := List.mem_map.1 hy
    obtain ⟨v, -, rfl⟩ := List.mem_map.1 hx
    rfl

theorem homogeneous_of {l : List (List K)} {d : ℕ} (h : ∀ r ∈ l, r.length = d) : homogeneous l = true := by
  unfold homogeneous
  rw [List.all_eq_true]
  intro r hr
  rw [decide_eq_true_eq, h r hr]
  cases l with
  | nil => simp at hr
  | cons x l => exact (h x (by simp)).symm

/-- The checks of `load` that a saved file passes. -/
theorem saved_ok (neighbors : List (List K)) (d : ℕ) (hd : ∀ r ∈ neighbors, r.length = d) (params : List (Fin b → Fin b → Cx K)) :
    (!(homogeneous neighbors && homogeneous ((params.map fun h => (flat h).map fun v => [(clean v).1, (clean v).2]).flatten) &&
      (params.map fun h => (flat h).map fun v => [(clean v).1, (clean v).2]).all fun p =>
        decide (p.length = ((params.map fun h => (flat h).map fun v => [(clean v).1, (clean v).2]).headD []).length))) = false := by
  have h1 := homogeneous_of hd
  have h2 : homogeneous ((params.map fun h => (flat h).map fun v => [(clean v).1, (clean v).2]).flatten) = true := by
    apply homogeneous_of (d := 2)
    intro x hx
    obtain ⟨y, hy, hx⟩ := List.mem_flatten.1 hx
    obtain ⟨h, -, rfl⟩ := List.mem_map.1 hy
    obtain ⟨v, -, rfl⟩ := List.mem_map.1 hx
    rfl
  have hw : ∀ x ∈ (params.map fun h => (flat h).map fun v => [(clean v).1, (clean v).2]), x.length = b * b := by
    intro x hx
    obtain ⟨h, -, rfl⟩ := List.mem_map.1 hx
    rw [List.length_map, flat_length]
  have h3 : ((params.map fun h => (flat h).map fun v => [(clean v).1, (clean v).2]).all fun p =>
        decide (p.length = ((params.map fun h => (flat h).map fun v => [(clean v).1, (clean v).2]).headD []).length)) = true := by
    rw [List.all_eq_true]
    intro x hx
    rw [decide_eq_true_eq, hw x hx]
    cases params with
    | nil => simp at hx
    | cons y l => exact (hw _ (by simp)).symm
  rw [h1, h2, h3]; rfl

/-- C31.  Saving a model and loading it again returns the saved neighbours and matrices, rearranged so that the neighbours
are sorted by length, with parts below `10⁻¹⁴` in magnitude replaced by zero and everything else unchanged. -/
theorem C31_round_trip (sort : List (List K × (ℕ → ℕ → Cx K)) → List (List K × (ℕ → ℕ → Cx K))) (hsort : Spec.IsSortJ sort)
    (neighbors : List (List K)) (d : ℕ) (hd : ∀ r ∈ neighbors, r.length = d) (params : List (Fin b → Fin b → Cx K))
    (hb : 0 < b) (hn : neighbors ≠ []) (hlen : params.length = neighbors.length) :
    ∃ f r l, save neighbors params = .ok f ∧ load sort f = .ok r ∧ Spec.Saved neighbors params l ∧ r.Perm l ∧
      r.Pairwise fun x y => Spec.normSq x.1 ≤ Spec.normSq y.1 := by
  have hp : params ≠ [] := by
    rintro rfl
    exact hn (List.length_eq_zero_iff.1 hlen.symm)
  refine ⟨_, _, neighbors.zipIdx.map fun x => (x.1, fun i j =>
      (entry (params.map fun h => (flat h).map fun v => [(clean v).1, (clean v).2]).flatten.flatten b 2 x.2 i j 0,
        entry (params.map fun h => (flat h).map fun v => [(clean v).1, (clean v).2]).flatten.flatten b 2 x.2 i j 1)),
    if_neg (by simp [hp]), ?_, ?_, (hsort _).1, (hsort _).2⟩
  · unfold load
    rw [saved_ok neighbors d hd params]
    have hN : 0 < neighbors.length := List.length_pos_of_ne_nil hn
    have hm : 0 < neighbors.length * b * b := Nat.mul_pos (Nat.mul_pos hN hb) hb
    have e : params.length * (b * b) * 2 = 2 * (neighbors.length * b * b) := by rw [hlen]; ring
    simp only [Bool.false_eq_true, if_false, saved_length, e, Nat.mul_mod_left, ne_eq, not_true_eq_false, or_false,
      Nat.mul_div_cancel _ hm, if_neg hm.ne', if_true]
  · refine ⟨by rw [List.map_map]; exact List.zipIdx_map_fst 0 neighbors, by simp [hlen], ?_⟩
    intro p hl hp i j
    have hpn : p < neighbors.length := by omega
    simp only [List.getElem_map, List.getElem_zipIdx, Nat.zero_add]
    rw [saved_entry params p hp i j 0 (by omega), saved_entry params p hp i j 1 (by omega)]
    exact clean_rounded _

theorem rounded_of_zero_or {x x' : K} (h : Spec.Rounded x x') (hx : x = 0 ∨ 1 / 10 ^ 14 ≤ |x|) : x' = x := by
  rcases hx with rfl | hx
  · exact h.1 (by rw [abs_zero]; positivity)
  · exact h.2 hx

theorem rounded_result {x x' : K} (h : Spec.Rounded x x') : x' = 0 ∨ 1 / 10 ^ 14 ≤ |x'| := by
  rcases lt_or_ge |x| (1 / 10 ^ 14) with h' | h'
  · exact Or.inl (h.1 h')
  · right; rw [h.2 h']; exact h'

/-- C31.  Without tiny non-zero parts nothing is changed but the order; this covers every second round trip, because the
entries of a loaded model have no such parts. -/
theorem C31_exact (neighbors : List (List K)) (params : List (Fin b → Fin b → Cx K)) (l : List (List K × (ℕ → ℕ → Cx K)))
    (h : Spec.Saved neighbors params l) :
    (∀ x ∈ l, ∀ i j : Fin b, ((x.2 i j).1 = 0 ∨ 1 / 10 ^ 14 ≤ |(x.2 i j).1|) ∧ ((x.2 i j).2 = 0 ∨ 1 / 10 ^ 14 ≤ |(x.2 i j).2|)) ∧
    ((∀ P ∈ params, ∀ i j, ((P i j).1 = 0 ∨ 1 / 10 ^ 14 ≤ |(P i j).1|) ∧ ((P i j).2 = 0 ∨ 1 / 10 ^ 14 ≤ |(P i j).2|)) →
      ∀ p, (hl : p < l.length) → (hp : p < params.length) → ∀ i j : Fin b, (l[p]).2 i j = params[p] i j) := by
  constructor
  · intro x hx i j
    obtain ⟨p, hl, rfl⟩ := List.mem_iff_getElem.1 hx
    have := h.2.2 p hl (by rw [← h.2.1]; exact hl) i j
    exact ⟨rounded_result this.1, rounded_result this.2⟩
  · intro hP p hl hp i j
    have h1 := h.2.2 p hl hp i j
    have h2 := hP _ (List.getElem_mem hp) i j
    exact Prod.ext (rounded_of_zero_or h1.1 h2.1) (rounded_of_zero_or h1.2 h2.2)

/-- C31 (defect).  `save` does not compare the numbers of matrices and neighbours.  With half as many matrices as
neighbours the file loads without an error, as a model whose matrices are all real; with other numbers `load` raises
`ValueError` or, if the numbers divide, `AssertionError`. -/
theorem C31_mismatch (sort : List (List K × (ℕ → ℕ → Cx K)) → List (List K × (ℕ → ℕ → Cx K))) (hsort : Spec.IsSortJ sort)
    (neighbors : List (List K)) (d : ℕ) (hd : ∀ r ∈ neighbors, r.length = d) (params : List (Fin b → Fin b → Cx K))
    (hb : 0 < b) (hn : neighbors ≠ []) (hp : params ≠ []) (hlen : params.length ≠ neighbors.length) :
    ∃ f, save neighbors params = .ok f ∧
      (neighbors.length = 2 * params.length → ∃ r, load sort f = .ok r ∧ r.length = neighbors.length ∧ ∀ x ∈ r, ∀ i j, (x.2 i j).2 = 0) ∧
      (¬ neighbors.length ∣ 2 * params.length → load sort f = .error .valueError) ∧
      (neighbors.length ∣ 2 * params.length → neighbors.length ≠ 2 * params.length → load sort f = .error .assertionError) := by
  refine ⟨_, if_neg (by simp [hp]), ?_⟩
  have hN : 0 < neighbors.length := List.length_pos_of_ne_nil hn
  have hP : 0 < params.length := List.length_pos_of_ne_nil hp
  have hbb : 0 < b * b := Nat.mul_pos hb hb
  have hm : 0 < neighbors.length * b * b := Nat.mul_pos (Nat.mul_pos hN hb) hb
  have hdvd : params.length * (b * b) * 2 % (neighbors.length * b * b) = 0 ↔ neighbors.length ∣ 2 * params.length := by
    rw [← Nat.dvd_iff_mod_eq_zero]
    have e1 : params.length * (b * b) * 2 = (2 * params.length) * (b * b) := by ring
    rw [e1, mul_assoc neighbors.length]
    exact Nat.mul_dvd_mul_iff_right hbb
  have hdiv : params.length * (b * b) * 2 / (neighbors.length * b * b) = 2 * params.length / neighbors.length := by
    have e1 : params.length * (b * b) * 2 = (2 * params.length) * (b * b) := by ring
    rw [e1, mul_assoc neighbors.length, Nat.mul_div_mul_right _ _ hbb]
  unfold load
  rw [saved_ok neighbors d hd params]
  simp only [Bool.false_eq_true, if_false, saved_length, hdiv, hm.ne', false_or]
  refine ⟨fun h2 => ?_, fun h => ?_, fun h h2 => ?_⟩
  · have h1 : neighbors.length ∣ 2 * params.length := by rw [h2]
    have e : 2 * params.length / neighbors.length = 1 := by rw [h2]; exact Nat.div_self (by omega)
    rw [if_neg (not_not.2 (hdvd.2 h1)), e]
    simp only [OfNat.one_ne_ofNat, if_false, ne_eq, not_true_eq_false]
    refine ⟨_, rfl, ?_, ?_⟩
    · rw [(hsort _).1.length_eq]; simp
    · intro x hx i j
      obtain ⟨y, -, rfl⟩ := List.mem_map.1 ((hsort _).1.mem_iff.1 hx)
      rfl
  · rw [if_pos fun h' => h (hdvd.1 h')]
  · rw [if_neg (not_not.2 (hdvd.2 h))]
    obtain ⟨c, hc⟩ := h
    have e : 2 * params.length / neighbors.length = c := by rw [hc]; exact Nat.mul_div_cancel_left _ hN
    rw [e]
    have c2 : c ≠ 2 := by rintro rfl; apply hlen; omega
    have c1 : c ≠ 1 := by rintro rfl; apply h2; omega
    rw [if_neg c2, if_pos c1]

/-! ## The loaded model has the same values -/

/-- A neighbour of the loaded arrays as a vector. -/
def vec (d : ℕ) (x : List ℝ × (ℕ → ℕ → Cx ℝ)) : RVec d := fun a => x.1.getD a 0

/-- A matrix of the loaded arrays. -/
def mat (b : ℕ) (x : List ℝ × (ℕ → ℕ → Cx ℝ)) : CMat b := fun i j => ⟨(x.2 i j).1, (x.2 i j).2⟩

theorem hsum_perm {d : ℕ} (c : RVec d → ℂ) (t : RVec d × CMat b) (l l' : List (RVec d × CMat b)) (h : l.Perm l') :
    hsum c (t :: l) = hsum c (t :: l') := by
  unfold hsum
  have : l.foldl (fun m t => m + c t.1 • t.2) (0 : CMat b) = l'.foldl (fun m t => m + c t.1 • t.2) 0 := by
    refine h.foldl_eq' (fun x _ y _ z => ?_) _
    rw [add_assoc, add_assoc, add_comm (c x.1 • x.2)]
  simp only [this]

theorem normSq_zero {d : ℕ} {r : List ℝ} (h : Spec.normSq r ≤ 0) (a : Fin d) : r.getD a 0 = 0 := by
  have key : ∀ x ∈ r, x = 0 := by
    unfold Spec.normSq at h
    intro x hx
    have hnn : ∀ y ∈ r.map (fun x => x ^ 2), 0 ≤ y := by
      intro y hy
      obtain ⟨z, -, rfl⟩ := List.mem_map.1 hy
      positivity
    have := List.single_le_sum hnn (x ^ 2) (List.mem_map.2 ⟨x, hx, rfl⟩)
    have h2 : x ^ 2 ≤ 0 := this.trans h
    exact pow_eq_zero_iff (two_ne_zero) |>.1 (le_antisymm h2 (sq_nonneg x))
  rw [List.getD_eq_getElem?_getD]
  cases hx : r[(a : ℕ)]? with
  | none => rfl
  | some x => exact key x (List.mem_of_getElem? hx)

/-- **C31** A file without neighbours or with band count 0 is rejected with `ValueError`. -/
theorem C31_empty {K : Type} [Field K] [LinearOrder K] [IsStrictOrderedRing K]
    (sort : List (List K × (ℕ → ℕ → Cx K)) → List (List K × (ℕ → ℕ → Cx K))) (f : Json K)
    (h : f.neighbors = [] ∨ f.bandCount = 0) : load sort f = .error .valueError := by
  unfold load
  split_ifs with h1
  · rfl
  · simp only
    rw [if_pos (Or.inl (by rcases h with h | h <;> simp [h]))]

example : load (K := ℚ) id ⟨1, [[[1, 0]]], []⟩ = .error .valueError := C31_empty _ _ (Or.inl rfl)

/-- The arrays read from the file of a series: the first term stays in place, the others are rearranged. -/
theorem json_arrays {d : ℕ} (sort : List (List ℝ × (ℕ → ℕ → Cx ℝ)) → List (List ℝ × (ℕ → ℕ → Cx ℝ))) (hsort : Spec.IsSortJ sort)
    (N : List (RVec d)) (H0 : CMat b) (Hs : List (CMat b)) (hlen : N.length = Hs.length) (hb : 0 < b)
    (hN : ∀ r ∈ N, r ≠ 0)
    (hH : ∀ M ∈ H0 :: Hs, ∀ i j, ((M i j).re = 0 ∨ 1 / 10 ^ 14 ≤ |(M i j).re|) ∧ ((M i j).im = 0 ∨ 1 / 10 ^ 14 ≤ |(M i j).im|)) :
    ∃ f x r, save (((0 : RVec d) :: N).map List.ofFn) ((H0 :: Hs).map fun M i j => ((M i j).re, (M i j).im)) = .ok f ∧
      f.bandCount = b ∧ load sort f = .ok (x :: r) ∧ x.1.length = d ∧ (vec d x, mat b x) = (0, H0) ∧
      (r.map fun x => (vec d x, mat b x)).Perm (N.zip Hs) := by
  set H := H0 :: Hs with hHdef
  have hlen' : ((0 : RVec d) :: N).length = H.length := by simp [hHdef, hlen]
  obtain ⟨f, r, l, h1, h2, h3, h4, h5⟩ := C31_round_trip sort hsort (((0 : RVec d) :: N).map List.ofFn) d
    (by intro x hx; obtain ⟨y, -, rfl⟩ := List.mem_map.1 hx; simp) (H.map fun M i j => ((M i j).re, (M i j).im)) hb (by simp)
    (by simp [← hlen'])
  have hex := (C31_exact _ _ l h3).2 (by
    intro P hP i j
    obtain ⟨M, hM, rfl⟩ := List.mem_map.1 hP
    exact hH M hM i j)
  have hll : l.length = H.length := by rw [h3.2.1]; simp
  have hlT : l.map (fun x => (vec d x, mat b x)) = ((0 : RVec d) :: N).zip H := by
    apply List.ext_getElem
    · simp [hll, ← hlen']
    · intro p q1 q2
      have hp : p < l.length := by simpa using q1
      have hfst : l[p].1 = List.ofFn (((0 : RVec d) :: N)[p]'(by rw [hlen', ← hll]; exact hp)) := by
        have e : (l.map Prod.fst)[p]'(by simpa using hp) =
            (((0 : RVec d) :: N).map List.ofFn)[p]'(by rw [List.length_map, hlen', ← hll]; exact hp) :=
          List.getElem_of_eq h3.1 _
        rw [List.getElem_map, List.getElem_map] at e
        exact e
      have hsnd := hex p hp (by rw [List.length_map, ← hll]; exact hp)
      rw [List.getElem_map, List.getElem_zip]
      refine Prod.ext ?_ ?_
      · funext a
        change l[p].1.getD a 0 = _
        rw [hfst, List.getD_eq_getElem?_getD, List.getElem?_ofFn]
        simp
      · funext i j
        have := hsnd i j
        rw [List.getElem_map] at this
        change (⟨(l[p].2 i j).1, (l[p].2 i j).2⟩ : ℂ) = _
        rw [this]
  have hrT : (r.map fun x => (vec d x, mat b x)).Perm (((0 : RVec d) :: N).zip H) := hlT ▸ h4.map _
  have hband : f.bandCount = b := by
    unfold save at h1
    split_ifs at h1
    rw [← Except.ok.inj h1]
  rw [hHdef, List.zip_cons_cons] at hrT
  -- the loaded series starts with the zero neighbour
  cases r with
  | nil => exact absurd hrT.symm.eq_nil (by simp)
  | cons x r =>
  have hxl : x.1.length = d := by
    have : x.1 ∈ l.map Prod.fst := List.mem_map.2 ⟨x, h4.mem_iff.1 (by simp), rfl⟩
    rw [h3.1] at this
    obtain ⟨y, -, hy⟩ := List.mem_map.1 this
    rw [← hy]; simp
  have hx0 : Spec.normSq x.1 ≤ 0 := by
    have hz : ∃ y ∈ x :: r, Spec.normSq y.1 = 0 := by
      have : List.ofFn (0 : RVec d) ∈ l.map Prod.fst := by rw [h3.1]; simp
      obtain ⟨y, hy, hy'⟩ := List.mem_map.1 this
      refine ⟨y, h4.mem_iff.2 hy, ?_⟩
      rw [hy']
      simp [Spec.normSq, List.map_ofFn, List.sum_ofFn]
    obtain ⟨y, hy, hy0⟩ := hz
    rcases List.mem_cons.1 hy with rfl | hy
    · exact hy0.le
    · rw [← hy0]; exact (List.pairwise_cons.1 h5).1 y hy
  have hv : vec d x = 0 := by
    funext a
    exact normSq_zero hx0 a
  have hxe : (vec d x, mat b x) = (0, H0) := by
    have hm : (vec d x, mat b x) ∈ ((0 : RVec d), H0) :: N.zip Hs := hrT.mem_iff.1 (by simp)
    rcases List.mem_cons.1 hm with h | h
    · exact h
    · have := (List.of_mem_zip h).1
      exact absurd hv (hN _ this)
  have hperm : (r.map fun x => (vec d x, mat b x)).Perm (N.zip Hs) := by
    rw [List.map_cons, hxe] at hrT
    exact hrT.cons_inv
  exact ⟨f, x, r, h1, hband, h2, hxl, hxe, hperm⟩

/-- C31.  A series with neighbour zero in the first place only and without tiny non-zero parts is reconstructed from its
file with the same values and derivatives at every k. -/
theorem C31_value {d : ℕ} (sort : List (List ℝ × (ℕ → ℕ → Cx ℝ)) → List (List ℝ × (ℕ → ℕ → Cx ℝ))) (hsort : Spec.IsSortJ sort)
    (N : List (RVec d)) (H : List (CMat b)) (s : Series d b) (hs : mkSeries N H = .ok s) (hb : 0 < b)
    (hN : ∀ r ∈ N.tail, r ≠ 0)
    (hH : ∀ M ∈ H, ∀ i j, ((M i j).re = 0 ∨ 1 / 10 ^ 14 ≤ |(M i j).re|) ∧ ((M i j).im = 0 ∨ 1 / 10 ^ 14 ≤ |(M i j).im|)) :
    ∃ f r s', save (N.map List.ofFn) (H.map fun M i j => ((M i j).re, (M i j).im)) = .ok f ∧ load sort f = .ok r ∧
      mkSeries (r.map (vec d)) (r.map (mat b)) = .ok s' ∧
      ∀ k, s'.f k = s.f k ∧ (∀ a, s'.df k a = s.df k a) ∧ ∀ a c, s'.ddf k a c = s.ddf k a c := by
  -- the given series
  cases N with
  | nil => simp [mkSeries] at hs
  | cons r0 N =>
  unfold mkSeries at hs
  simp only at hs
  by_cases hr0 : vnorm r0 ≠ 0
  · rw [if_pos hr0] at hs; simp at hs
  rw [if_neg hr0] at hs
  rw [not_not, vnorm_eq_zero] at hr0
  subst hr0
  by_cases hlen : ((0 : RVec d) :: N).length ≠ H.length
  · rw [if_pos hlen] at hs; simp at hs
  rw [if_neg hlen] at hs
  rw [not_not] at hlen
  have hs := Except.ok.inj hs
  obtain ⟨H0, Hs, rfl⟩ : ∃ H0 Hs, H = H0 :: Hs := by
    cases H with
    | nil => simp at hlen
    | cons a b => exact ⟨a, b, rfl⟩
  obtain ⟨f, x, r, h1, -, h2, -, hxe, hperm⟩ := json_arrays sort hsort N H0 Hs (by simpa using hlen) hb hN hH
  have hzip : ((x :: r).map (vec d)).zip ((x :: r).map (mat b)) = (0, H0) :: r.map fun x => (vec d x, mat b x) := by
    rw [List.map_cons, List.map_cons, List.zip_cons_cons, hxe, List.zip_map', ]
  refine ⟨f, x :: r, ⟨(0, H0) :: r.map fun x => (vec d x, mat b x)⟩, h1, h2, ?_, ?_⟩
  · unfold mkSeries
    rw [List.map_cons]
    simp only
    rw [if_neg (by rw [(Prod.mk.inj hxe).1]; simp [vnorm]), if_neg (by simp), ← List.map_cons, hzip]
  · intro k
    rw [← hs]
    exact ⟨hsum_perm _ _ _ _ hperm, fun a => hsum_perm _ _ _ _ hperm, fun a c => hsum_perm _ _ _ _ hperm⟩

/-! ## Examples -/

/-- Sorting by length as an insertion sort. -/
def exSortJ {K : Type} [Field K] [LinearOrder K] [IsStrictOrderedRing K] (l : List (List K × (ℕ → ℕ → Cx K))) : List (List K × (ℕ → ℕ → Cx K)) :=
  l.insertionSort fun x y => Spec.normSq x.1 ≤ Spec.normSq y.1

theorem exSortJ_isSort : Spec.IsSortJ (exSortJ (K := K)) := by
  intro l
  have : Std.Total (fun x y : List K × (ℕ → ℕ → Cx K) => Spec.normSq x.1 ≤ Spec.normSq y.1) := ⟨fun a b => le_total _ _⟩
  have : IsTrans (List K × (ℕ → ℕ → Cx K)) (fun x y => Spec.normSq x.1 ≤ Spec.normSq y.1) := ⟨fun a b c h1 h2 => le_trans h1 h2⟩
  exact ⟨List.perm_insertionSort _ _, List.pairwise_insertionSort _ _⟩

/-- A model with two bands whose neighbours are not sorted, with a tiny imaginary part. -/
def exParams : List (Fin 2 → Fin 2 → Cx ℚ) :=
  [fun i j => (i + 1, if i = j then 1 / 10 ^ 15 else j), fun i j => (3 * i, 5 * j + 1 / 2)]

/-- `C31_round_trip`. -/
example : okAnd ((save [[1, 1], [0, 1]] exParams).bind (load exSortJ)) (fun r =>
    r.map (fun x => (x.1, x.2 0 0, x.2 1 0, x.2 0 1)) ==
      [([0, 1], (0, 1 / 2), (3, 1 / 2), (0, 11 / 2)), ([1, 1], (1, 0), (2, 0), (1, 1))]) = true := by decide +kernel

example : ∃ f r l, save [[1, 1], [0, 1]] exParams = .ok f ∧ load exSortJ f = .ok r ∧ Spec.Saved [[1, 1], [0, 1]] exParams l ∧ r.Perm l ∧
    r.Pairwise fun x y => Spec.normSq x.1 ≤ Spec.normSq y.1 :=
  C31_round_trip exSortJ exSortJ_isSort _ 2 (by simp) _ (by decide) (by simp) rfl

/-- `C31_mismatch`: four neighbours and two matrices load as a real model, three neighbours do not load. -/
example : okAnd ((save [[0], [1], [2], [3]] exParams).bind (load exSortJ)) (fun r =>
    r.map (fun x => (x.1, x.2 0 0, x.2 1 1)) == [([0], (1, 0), (1, 0)), ([1], (2, 0), (0, 0)), ([2], (0, 0), (11 / 2, 0)), ([3], (3, 0), (11 / 2, 0))]) = true := by
  decide +kernel

/-- `C31_value`: a chain with hopping `i`. -/
example : ∃ f r s', save (([0, ![1]] : List (RVec 1)).map List.ofFn)
      (([!![1], !![Complex.I]] : List (CMat 1)).map fun M i j => ((M i j).re, (M i j).im)) = .ok f ∧ load exSortJ f = .ok r ∧
      mkSeries (r.map (vec 1)) (r.map (mat 1)) = .ok s' ∧
      ∀ k, s'.f k = exChain.f k ∧ (∀ a, s'.df k a = exChain.df k a) ∧ ∀ a c, s'.ddf k a c = exChain.ddf k a c := by
  refine C31_value exSortJ exSortJ_isSort _ _ exChain exChain_ok (by decide) ?_ ?_
  · intro r hr
    simp only [List.tail_cons, List.mem_singleton] at hr
    rw [hr]
    intro h
    have := congrFun h 0
    simp at this
  · intro M hM i j
    have hi : i = 0 := Subsingleton.elim _ _
    have hj : j = 0 := Subsingleton.elim _ _
    subst hi hj
    simp only [List.mem_cons, List.not_mem_nil, or_false] at hM
    rcases hM with rfl | rfl <;> simp <;> norm_num

end TB.Fmt
