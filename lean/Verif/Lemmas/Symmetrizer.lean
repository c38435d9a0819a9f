import Verif.Props.Symmetrize

/-!
# Lemmas: the prepared symmetrisation (`symmetrizer`)
-/

namespace TB.UR
open Spec Matrix

set_option linter.unusedSectionVars false

variable {K : Type} [Field K] [LinearOrder K] [IsStrictOrderedRing K] {d : ℕ}
variable {F : Type} [Field F] [StarRing F] [DecidableEq F] {N : ℕ}

/-! ### Dictionaries -/

/-- One step of `repClass`. -/
def repStep (i : ℕ) (D : ℕ → Option (ℕ × Bool)) (t : (ℕ × Kind) × ℕ) : ℕ → Option (ℕ × Bool) :=
  match t with
    | ((_, .center), _) => D
    | ((j, .mirrored), m) => if j ≠ i ∧ D j = none then (fun x => if x = j then some (m, true) else D x) else D
    | ((j, .normal), m) => if j ≠ i then (fun x => if x = j then some (m, false) else D x) else D

theorem repClass_eq (i : ℕ) (row : List (ℕ × Kind)) : repClass i row = row.zipIdx.foldl (repStep i) fun _ => none := rfl

/-- What an entry of the dictionary means. -/
def Entry (i : ℕ) (l : List ((ℕ × Kind) × ℕ)) (x : ℕ) (mb : ℕ × Bool) : Prop :=
  x ≠ i ∧ ((x, if mb.2 then Kind.mirrored else Kind.normal), mb.1) ∈ l

theorem repFold_sound (i : ℕ) (L l : List ((ℕ × Kind) × ℕ)) (hl : ∀ t ∈ l, t ∈ L) (D : ℕ → Option (ℕ × Bool))
    (hD : ∀ x mb, D x = some mb → Entry i L x mb) :
    ∀ x mb, l.foldl (repStep i) D x = some mb → Entry i L x mb := by
  induction l generalizing D with
  | nil => exact hD
  | cons t l ih =>
    rw [List.foldl_cons]
    refine ih (fun t ht => hl t (by simp [ht])) _ ?_
    have ht := hl t (by simp)
    rcases t with ⟨⟨j, kd⟩, m⟩
    cases kd with
    | center => exact hD
    | mirrored =>
      intro x mb hx
      simp only [repStep] at hx
      split_ifs at hx with h1
      · simp only at hx
        split_ifs at hx with h2
        · obtain rfl := Option.some.inj hx
          subst h2
          exact ⟨h1.1, by simpa using ht⟩
        · exact hD x mb hx
      · exact hD x mb hx
    | normal =>
      intro x mb hx
      simp only [repStep] at hx
      split_ifs at hx with h1
      · simp only at hx
        split_ifs at hx with h2
        · obtain rfl := Option.some.inj hx
          subst h2
          exact ⟨h1, by simpa using ht⟩
        · exact hD x mb hx
      · exact hD x mb hx

theorem repStep_mono (i : ℕ) (D : ℕ → Option (ℕ × Bool)) (t : (ℕ × Kind) × ℕ) (x : ℕ) (h : (D x).isSome) :
    (repStep i D t x).isSome := by
  rcases t with ⟨⟨j, kd⟩, m⟩
  have key : ∀ v : ℕ × Bool, ((fun y => if y = j then some v else D y) x).isSome := by
    intro v
    by_cases hx : x = j
    · simp [hx]
    · simpa [hx] using h
  cases kd with
  | center => exact h
  | mirrored =>
    simp only [repStep]
    split_ifs
    · exact key _
    · exact h
  | normal =>
    simp only [repStep]
    split_ifs
    · exact key _
    · exact h

theorem repFold_mono (i : ℕ) (l : List ((ℕ × Kind) × ℕ)) (D : ℕ → Option (ℕ × Bool)) (x : ℕ) (h : (D x).isSome) :
    (l.foldl (repStep i) D x).isSome := by
  induction l generalizing D with
  | nil => exact h
  | cons t l ih => exact ih _ (repStep_mono i D t x h)

theorem repFold_complete (i : ℕ) (l : List ((ℕ × Kind) × ℕ)) (D : ℕ → Option (ℕ × Bool)) (x m : ℕ) (kd : Kind) (hk : kd ≠ .center)
    (hx : x ≠ i) (h : ((x, kd), m) ∈ l) : (l.foldl (repStep i) D x).isSome := by
  induction l generalizing D with
  | nil => simp at h
  | cons t l ih =>
    rw [List.foldl_cons]
    rcases List.mem_cons.1 h with rfl | h
    · apply repFold_mono
      cases kd with
      | center => exact absurd rfl hk
      | mirrored =>
        simp only [repStep]
        by_cases hD : D x = none
        · simp [hx, hD]
        · rw [if_neg (by tauto)]
          exact Option.isSome_iff_ne_none.2 hD
      | normal => simp [repStep, hx]
    · exact ih _ h

theorem repClass_sound {i : ℕ} {row : List (ℕ × Kind)} {x : ℕ} {m : ℕ} {b : Bool} (h : repClass i row x = some (m, b)) :
    x ≠ i ∧ ∃ hm : m < row.length, row[m] = (x, if b then Kind.mirrored else Kind.normal) := by
  rw [repClass_eq] at h
  obtain ⟨h1, h2⟩ := repFold_sound i _ _ (fun _ h => h) _ (by simp) x (m, b) h
  refine ⟨h1, ?_⟩
  obtain ⟨h3, h4⟩ := List.mem_zipIdx' h2
  exact ⟨h3, h4.symm⟩

theorem repClass_complete {i : ℕ} {row : List (ℕ × Kind)} {x : ℕ} {kd : Kind} (hk : kd ≠ .center) (hx : x ≠ i)
    (h : (x, kd) ∈ row) : (repClass i row x).isSome := by
  rw [repClass_eq]
  obtain ⟨m, hm, he⟩ := List.getElem_of_mem h
  refine repFold_complete i _ _ x m kd hk hx ?_
  rw [List.mem_zipIdx_iff_getElem?]
  simp [List.getElem?_eq_getElem hm, he]

/-! ### Classes -/

theorem classLoop_mem (rows : List (List (ℕ × Kind))) (a : ℕ) (cl : List ℕ) (cov : ℕ → Bool) (i : ℕ) :
    i ∈ (classLoop a rows (cl, cov)).1 ↔ i ∈ cl ∨ (a ≤ i ∧ i < a + rows.length ∧ cov i = false ∧
      ∀ j, a ≤ j → j < i → (repClass j (rows.getD (j - a) []) i).isSome = false) := by
  induction rows generalizing a cl cov with
  | nil => simp only [classLoop, List.length_nil, add_zero]; constructor
           · exact Or.inl
           · rintro (h | ⟨h1, h2, -⟩)
             · exact h
             · omega
  | cons row rows ih =>
    rw [classLoop, ih]
    have hg : ∀ j, a + 1 ≤ j → (row :: rows).getD (j - a) [] = rows.getD (j - (a + 1)) [] := by
      intro j hj
      have : j - a = (j - (a + 1)) + 1 := by omega
      rw [this, List.getD_cons_succ]
    have h0 : (row :: rows).getD (a - a) [] = row := by simp
    have hcl : i ∈ (if cov a = true then cl else cl ++ [a]) ↔ i ∈ cl ∨ (i = a ∧ cov a = false) := by
      by_cases hc : cov a = true
      · simp [hc]
      · simp [hc]
    rw [hcl, List.length_cons]
    constructor
    · rintro ((h | ⟨rfl, h⟩) | ⟨h1, h2, h3, h4⟩)
      · exact Or.inl h
      · exact Or.inr ⟨le_refl _, by omega, h, fun j h1 h2 => by omega⟩
      · simp only [Bool.or_eq_false_iff] at h3
        refine Or.inr ⟨by omega, by omega, h3.1, fun j h5 h6 => ?_⟩
        rcases Nat.eq_or_lt_of_le h5 with rfl | h5
        · rw [h0]; exact h3.2
        · rw [hg j h5]; exact h4 j h5 h6
    · rintro (h | ⟨h1, h2, h3, h4⟩)
      · exact Or.inl (Or.inl h)
      · rcases Nat.eq_or_lt_of_le h1 with rfl | h1
        · exact Or.inl (Or.inr ⟨rfl, h3⟩)
        · refine Or.inr ⟨h1, by omega, ?_, fun j h5 h6 => ?_⟩
          · simp only [Bool.or_eq_false_iff]
            have := h4 a (le_refl _) h1
            rw [h0] at this
            exact ⟨h3, this⟩
          · have := h4 j (by omega) h6
            rw [hg j h5] at this
            exact this

/-! ### Task lists -/

theorem tasksOf_filter (kd : Kind) (rows : List (List (ℕ × Kind))) (i : ℕ) (hi : i < rows.length) :
    (tasksOf kd rows).filter (fun t => decide (t.1 = i)) =
      rows[i].zipIdx.filterMap fun t => if t.1.2 = kd then some (i, t.1.1, t.2) else none := by
  have key : ∀ (rows : List (List (ℕ × Kind))) (a : ℕ),
      ((rows.zipIdx a).flatMap fun (p : List (ℕ × Kind) × ℕ) => p.1.zipIdx.filterMap fun t =>
        if t.1.2 = kd then some (p.2, t.1.1, t.2) else none).filter (fun t => decide (t.1 = i)) =
      if h : a ≤ i ∧ i < a + rows.length then
        (rows[i - a]'(by omega)).zipIdx.filterMap fun t => if t.1.2 = kd then some (i, t.1.1, t.2) else none
      else [] := by
    intro rows
    induction rows with
    | nil => intro a; simp
    | cons row rows ih =>
      intro a
      rw [List.zipIdx_cons, List.flatMap_cons, List.filter_append, ih (a + 1)]
      by_cases hai : a = i
      · subst hai
        rw [dif_neg (by omega), dif_pos (by simp), List.append_nil, List.filter_eq_self.2]
        · simp
        · intro t ht
          obtain ⟨u, -, hu⟩ := List.mem_filterMap.1 ht
          split_ifs at hu
          obtain rfl := Option.some.inj hu
          simp
      · have h1 : List.filter (fun t : ℕ × ℕ × ℕ => decide (t.1 = i)) (row.zipIdx.filterMap fun t =>
            if t.1.2 = kd then some (a, t.1.1, t.2) else none) = [] := by
          rw [List.filter_eq_nil_iff]
          intro t ht
          obtain ⟨u, -, hu⟩ := List.mem_filterMap.1 ht
          split_ifs at hu
          obtain rfl := Option.some.inj hu
          simpa using hai
        rw [h1, List.nil_append]
        by_cases hc : a + 1 ≤ i ∧ i < a + 1 + rows.length
        · rw [dif_pos hc, dif_pos (by simp; omega)]
          have : i - a = (i - (a + 1)) + 1 := by omega
          simp only [this, List.getElem_cons_succ]
        · rw [dif_neg hc, dif_neg (by simp; omega)]
  have := key rows 0
  simp only [Nat.zero_le, zero_add, true_and, hi, dif_pos, Nat.sub_zero] at this
  exact this

theorem mem_tasksOf {kd : Kind} {rows : List (List (ℕ × Kind))} {t : ℕ × ℕ × ℕ} :
    t ∈ tasksOf kd rows ↔ ∃ (hi : t.1 < rows.length) (hm : t.2.2 < (rows[t.1]).length), (rows[t.1])[t.2.2] = (t.2.1, kd) := by
  unfold tasksOf
  rw [List.mem_flatMap]
  constructor
  · rintro ⟨⟨row, i⟩, h1, h2⟩
    obtain ⟨⟨⟨j, k'⟩, m⟩, h3, h4⟩ := List.mem_filterMap.1 h2
    change (if k' = kd then some (i, j, m) else none) = some t at h4
    split_ifs at h4 with h5
    obtain rfl := Option.some.inj h4
    obtain ⟨a1, a2⟩ := List.mem_zipIdx' h1
    obtain ⟨b1, b2⟩ := List.mem_zipIdx' h3
    refine ⟨a1, by simp only [← a2]; exact b1, ?_⟩
    simp only [← a2]
    rw [← h5]
    exact b2.symm
  · rintro ⟨hi, hm, he⟩
    refine ⟨(rows[t.1], t.1), ?_, ?_⟩
    · rw [List.mem_zipIdx_iff_getElem?]; simp [hi]
    · refine List.mem_filterMap.2 ⟨((t.2.1, kd), t.2.2), ?_, by simp⟩
      rw [List.mem_zipIdx_iff_getElem?]
      simp [hm, he]

/-- The copy lists. -/
theorem mem_copies {b : Bool} {n : ℕ} {classes : List ℕ} {rows : List (List (ℕ × Kind))} {t : ℕ × ℕ × ℕ} :
    t ∈ copies b n classes rows ↔ t.1 ∈ classes ∧ t.2.1 < n ∧ repClass t.1 (rows.getD t.1 []) t.2.1 = some (t.2.2, b) := by
  unfold copies
  rw [List.mem_flatMap]
  constructor
  · rintro ⟨i, hi, h⟩
    obtain ⟨j, hj, h⟩ := List.mem_filterMap.1 h
    cases hr : repClass i (rows.getD i []) j with
    | none => rw [hr] at h; cases h
    | some mb =>
      rw [hr] at h
      simp only at h
      split_ifs at h with h5
      obtain rfl := Option.some.inj h
      refine ⟨hi, List.mem_range.1 hj, ?_⟩
      rw [hr, ← h5]
  · rintro ⟨h1, h2, h3⟩
    refine ⟨t.1, h1, List.mem_filterMap.2 ⟨t.2.1, List.mem_range.2 h2, ?_⟩⟩
    rw [h3]
    simp

theorem copyTo_none {U : List (Mat F N)} {post : Mat F N → Mat F N} {cs : List (ℕ × ℕ × ℕ)} {res : ℕ → Mat F N} {x : ℕ}
    (h : ∀ c ∈ cs, c.2.1 ≠ x) : copyTo U post cs res x = res x := by
  unfold copyTo
  rw [List.find?_eq_none.2]
  intro c hc
  simpa using h c (List.mem_reverse.1 hc)

theorem copyTo_some {U : List (Mat F N)} {post : Mat F N → Mat F N} {cs : List (ℕ × ℕ × ℕ)} {res : ℕ → Mat F N} {x : ℕ}
    {y : Mat F N} (h : ∀ c ∈ cs, c.2.1 = x → post (U.getD c.2.2 0 * res c.1 * (U.getD c.2.2 0).conjTranspose) = y)
    (hx : res x = y ∨ ∃ c ∈ cs, c.2.1 = x) : copyTo U post cs res x = y := by
  unfold copyTo
  cases hf : cs.reverse.find? (fun c => decide (c.2.1 = x)) with
  | none =>
    simp only
    rcases hx with hx | ⟨c, hc, hcx⟩
    · exact hx
    · have := List.find?_eq_none.1 hf c (List.mem_reverse.2 hc)
      simp [hcx] at this
  | some c =>
    have h1 := List.mem_of_find?_eq_some hf
    have h2 := List.find?_some hf
    exact h c (List.mem_reverse.1 h1) (by simpa using h2)

/-! ### The rows for a closed list of neighbours -/

/-- Index of the position or its negative. -/
def npos (ns : List (Fin d → K)) (x : Fin d → K) : ℕ := if x ∈ ns then ns.idxOf x else ns.idxOf (-x)

/-- The case for a position. -/
def nkind (ns : List (Fin d → K)) (x : Fin d → K) : Kind :=
  if x = 0 then .center else if x ∈ ns then .normal else .mirrored

theorem classify_ok {ns : List (Fin d → K)} {x : Fin d → K} (h : x ∈ ns ∨ -x ∈ ns) :
    classify true ns x = .ok (npos ns x, nkind ns x) := by
  unfold classify neighbor npos nkind
  by_cases h1 : x ∈ ns
  · by_cases h0 : x = 0 <;> simp [h1, h0]
    subst h0; simp [h1]
  · have h2 : -x ∈ ns := by tauto
    by_cases h0 : x = 0
    · subst h0; simp at h2; exact absurd h2 h1
    · simp [h1, h2, h0]

theorem classify_error {b : Bool} {ns : List (Fin d → K)} {x : Fin d → K} (h : ¬ (x ∈ ns ∨ -x ∈ ns)) :
    classify b ns x = .error .valueError := by
  unfold classify
  rw [neighbor_error h]

theorem npos_lt {ns : List (Fin d → K)} {x : Fin d → K} (h : x ∈ ns ∨ -x ∈ ns) : npos ns x < ns.length := by
  unfold npos
  by_cases h1 : x ∈ ns
  · rw [if_pos h1]; exact List.idxOf_lt_length_of_mem h1
  · rw [if_neg h1]; exact List.idxOf_lt_length_of_mem (by tauto)

theorem npos_spec {ns : List (Fin d → K)} {x : Fin d → K} (h : x ∈ ns ∨ -x ∈ ns) :
    (x ∈ ns ∧ ns[npos ns x]'(npos_lt h) = x) ∨ (x ∉ ns ∧ ns[npos ns x]'(npos_lt h) = -x) := by
  by_cases h1 : x ∈ ns
  · left
    refine ⟨h1, ?_⟩
    simp only [npos, if_pos h1]
    exact List.getElem_idxOf _
  · right
    refine ⟨h1, ?_⟩
    simp only [npos, if_neg h1]
    exact List.getElem_idxOf _

theorem npos_self {ns : List (Fin d → K)} (hns : HalfList ns) {j : ℕ} (hj : j < ns.length) : npos ns ns[j] = j := by
  unfold npos
  rw [if_pos (List.getElem_mem hj)]
  exact hns.nodup.idxOf_getElem j hj

theorem npos_neg {ns : List (Fin d → K)} (hns : HalfList ns) {j : ℕ} (hj : j < ns.length) : npos ns (-ns[j]) = j := by
  by_cases h0 : -ns[j] ∈ ns
  · have := hns.half _ (List.getElem_mem hj) h0
    have e : -ns[j] = ns[j] := by rw [this, neg_zero]
    rw [e]
    exact npos_self hns hj
  · unfold npos
    rw [if_neg h0, neg_neg]
    exact hns.nodup.idxOf_getElem j hj

/-- The rows of the task table. -/
def rowsOf (S : List (Mat K d)) (ns : List (Fin d → K)) : List (List (ℕ × Kind)) :=
  ns.map fun r => S.map fun s => (npos ns (s.mulVec r), nkind ns (s.mulVec r))

theorem rows_ok (ρ : Rep K F d N) (ns : List (Fin d → K)) (hcl : ClosedUpToSign ρ ns) :
    ns.mapM (taskRow true ρ.sym.S ns) = .ok (rowsOf ρ.sym.S ns) := by
  refine mapM_ok fun r hr => ?_
  unfold taskRow
  exact mapM_ok fun s hs => classify_ok (hcl r hr s hs)

theorem val_kind {k : ℕ} {ns : List (Fin d → K)} {H : List (Mat F N)} {x : Fin d → K} (h : x ∈ ns ∨ -x ∈ ns) :
    val k true ns H x = match nkind ns x with
      | .center => zeroBlocks k (H.getD (npos ns x) 0)
      | .mirrored => flipBlocks k (H.getD (npos ns x) 0)
      | .normal => H.getD (npos ns x) 0 := by
  unfold npos nkind
  by_cases h1 : x ∈ ns
  · rw [val_mem h1]
    by_cases h0 : x = 0
    · subst h0; simp [h1]
    · simp [h1, h0]
  · have h2 : -x ∈ ns := by tauto
    have h0 : x ≠ 0 := by rintro rfl; simp at h2; exact h1 h2
    rw [val_mirror h1 h2]
    simp [h1, h0]

theorem list_sum_swap {α β M : Type} [AddCommMonoid M] (l : List α) (l' : List β) (f : α → β → M) :
    (l.map fun a => (l'.map fun b => f a b).sum).sum = (l'.map fun b => (l.map fun a => f a b).sum).sum := by
  induction l with
  | nil => simp
  | cons a l ih =>
    simp only [List.map_cons, List.sum_cons, ih]
    rw [List.sum_map_add]

/-- Each neighbour is hit once by every operation. -/
theorem target_count (ρ : Rep K F d N) (hc : ρ.sym.Constructed) (ns : List (Fin d → K)) (hns : HalfList ns)
    (hcl : ClosedUpToSign ρ ns) (j : ℕ) (hj : j < ns.length) :
    ((rowsOf ρ.sym.S ns).flatten.map Prod.fst).count j = ρ.sym.S.length := by
  have hone : ∀ s ∈ ρ.sym.S, ((ns.map fun r => npos ns (s.mulVec r)).count j) = 1 := by
    intro s hs
    have hdet := isUnit_det_of_abs (hc.det _ hs)
    have hinj : ∀ a b : Fin d → K, s.mulVec a = s.mulVec b → a = b := by
      intro a b hab
      have := congrArg (s⁻¹.mulVec) hab
      simpa [Matrix.mulVec_mulVec, Matrix.nonsing_inv_mul _ hdet] using this
    have hnd : (ns.map fun r => npos ns (s.mulVec r)).Nodup := by
      refine List.Nodup.map_on ?_ hns.nodup
      intro a ha b hb hab
      have h1 := npos_spec (hcl a ha s hs)
      have h2 := npos_spec (hcl b hb s hs)
      simp only [hab] at h1
      have hpm : s.mulVec a = s.mulVec b ∨ s.mulVec a = -(s.mulVec b) := by
        rcases h1 with ⟨-, h1⟩ | ⟨-, h1⟩ <;> rcases h2 with ⟨-, h2⟩ | ⟨-, h2⟩ <;> rw [h2] at h1
        · exact Or.inl h1.symm
        · exact Or.inr h1.symm
        · exact Or.inr (by rw [h1, neg_neg])
        · exact Or.inl (neg_injective h1).symm
      rcases hpm with h | h
      · exact hinj a b h
      · rw [← Matrix.mulVec_neg] at h
        have h := hinj a (-b) h
        have h0 := hns.half b hb (h ▸ ha)
        rw [h, h0, neg_zero]
    have hsub : ∀ x ∈ (ns.map fun r => npos ns (s.mulVec r)), x ∈ List.range ns.length := by
      intro x hx
      obtain ⟨r, hr, rfl⟩ := List.mem_map.1 hx
      exact List.mem_range.2 (npos_lt (hcl r hr s hs))
    have hperm := (hnd.subperm hsub).perm_of_length_le (by simp)
    rw [hperm.count_eq]
    exact List.count_eq_one_of_mem List.nodup_range (List.mem_range.2 hj)
  have h1 : (rowsOf ρ.sym.S ns).flatten.map Prod.fst = ns.flatMap fun r => ρ.sym.S.map fun s => npos ns (s.mulVec r) := by
    unfold rowsOf
    rw [List.map_flatten, List.map_map, List.flatMap_def]
    congr 1
    refine List.map_congr_left fun r _ => ?_
    simp [Function.comp_def]
  have hcount : ∀ (α : Type) (l : List α) (f : α → ℕ), (l.map f).count j = (l.map fun a => if f a = j then 1 else 0).sum := by
    intro α l f
    induction l with
    | nil => simp
    | cons a l ih =>
      rw [List.map_cons, List.map_cons, List.count_cons, List.sum_cons, ih, add_comm]
      simp
  rw [h1, List.count_flatMap]
  simp only [Function.comp_def, hcount]
  rw [list_sum_swap]
  have : (ρ.sym.S.map fun s => (ns.map fun r => if npos ns (s.mulVec r) = j then 1 else 0).sum) = ρ.sym.S.map fun _ => 1 := by
    refine List.map_congr_left fun s hs => ?_
    rw [← hcount _ ns fun r => npos ns (s.mulVec r)]
    exact hone s hs
  rw [this]
  simp

end TB.UR
