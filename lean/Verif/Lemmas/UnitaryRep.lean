import Mathlib.Algebra.Group.Submonoid.Membership
import Mathlib.Algebra.Group.Prod
import Mathlib.Data.Set.Card
import Mathlib.Data.List.Perm.Subperm
import Mathlib.Tactic.Linarith
import Verif.Model.UnitaryRep
import Verif.Lemmas.Symmetry

/-! Helper lemmas for the generation of unitary representations. -/

set_option linter.unusedSectionVars false

namespace TB.UR

section pairs
variable {A B : Type} [DecidableEq A] [DecidableEq B]

theorem insertPair_ok {D D' : List (A × B)} {p : A × B} (h : insertPair D p = .ok D')
    (hd : (D.map Prod.fst).Nodup) :
    (D'.map Prod.fst).Nodup ∧ D <+: D' ∧ p ∈ D' ∧ ∀ q ∈ D', q ∈ D ∨ q = p := by
  unfold insertPair at h
  cases hf : D.find? (fun q => decide (q.1 = p.1)) with
  | some q =>
    rw [hf] at h
    simp only at h
    have hq := List.find?_some hf
    have hm := List.mem_of_find?_eq_some hf
    by_cases he : q.2 = p.2
    · rw [if_pos he] at h
      obtain rfl : D = D' := by simpa using h
      have : q = p := Prod.ext (by simpa using hq) he
      exact ⟨hd, List.prefix_rfl, this ▸ hm, fun q hq => Or.inl hq⟩
    · rw [if_neg he] at h; cases h
  | none =>
    rw [hf] at h
    obtain rfl : D ++ [p] = D' := by simpa using h
    have hn : ∀ q ∈ D, q.1 ≠ p.1 := by simpa using List.find?_eq_none.1 hf
    refine ⟨?_, List.prefix_append _ _, by simp, fun q hq => by simpa using hq⟩
    rw [List.map_append, List.nodup_append]
    refine ⟨hd, by simp, ?_⟩
    intro a ha b hb
    obtain ⟨q, hq, rfl⟩ := List.mem_map.1 ha
    simp at hb; subst hb
    exact hn q hq

theorem insertPair_succeeds {D : List (A × B)} {p : A × B} {M : Set (A × B)}
    (hM : ∀ a ∈ M, ∀ b ∈ M, a.1 = b.1 → a.2 = b.2) (hD : ∀ q ∈ D, q ∈ M) (hp : p ∈ M) :
    ∃ D', insertPair D p = .ok D' := by
  unfold insertPair
  cases hf : D.find? (fun q => decide (q.1 = p.1)) with
  | some q =>
    have hq := List.find?_some hf
    have hm := List.mem_of_find?_eq_some hf
    simp only
    rw [if_pos (hM _ (hD _ hm) _ hp (by simpa using hq))]
    exact ⟨_, rfl⟩
  | none => exact ⟨_, rfl⟩

theorem insertPair_error {D : List (A × B)} {p : A × B} {e : Err} (h : insertPair D p = .error e) :
    e = .assertionError := by
  unfold insertPair at h
  split at h
  · split_ifs at h; simpa using h.symm
  · cases h

theorem foldInsert_ok {L D D' : List (A × B)} (h : L.foldlM insertPair D = .ok D')
    (hd : (D.map Prod.fst).Nodup) :
    (D'.map Prod.fst).Nodup ∧ D <+: D' ∧ (∀ p ∈ L, p ∈ D') ∧ ∀ q ∈ D', q ∈ D ∨ q ∈ L := by
  induction L generalizing D with
  | nil =>
    obtain rfl : D = D' := by simpa [List.foldlM, pure, Except.pure] using h
    exact ⟨hd, List.prefix_rfl, by simp, fun q hq => Or.inl hq⟩
  | cons p L ih =>
    rw [List.foldlM_cons] at h
    cases hi : insertPair D p with
    | error e => rw [hi] at h; cases h
    | ok D1 =>
      rw [hi] at h
      obtain ⟨h1, h2, h3, h4⟩ := insertPair_ok hi hd
      obtain ⟨i1, i2, i3, i4⟩ := ih h h1
      refine ⟨i1, h2.trans i2, ?_, ?_⟩
      · intro q hq
        rcases List.mem_cons.1 hq with rfl | hq
        · exact i2.subset h3
        · exact i3 q hq
      · intro q hq
        rcases i4 q hq with hq | hq
        · rcases h4 q hq with hq | rfl
          · exact Or.inl hq
          · exact Or.inr (by simp)
        · exact Or.inr (by simp [hq])

theorem foldInsert_succeeds {L D : List (A × B)} {M : Set (A × B)}
    (hM : ∀ a ∈ M, ∀ b ∈ M, a.1 = b.1 → a.2 = b.2) (hD : ∀ q ∈ D, q ∈ M) (hL : ∀ q ∈ L, q ∈ M)
    (hd : (D.map Prod.fst).Nodup) :
    ∃ D', L.foldlM insertPair D = .ok D' := by
  induction L generalizing D with
  | nil => exact ⟨D, rfl⟩
  | cons p L ih =>
    obtain ⟨D1, h1⟩ := insertPair_succeeds hM hD (hL p (by simp))
    obtain ⟨i1, -, -, i4⟩ := insertPair_ok h1 hd
    rw [List.foldlM_cons, h1]
    refine ih (D := D1) ?_ (fun q hq => hL q (by simp [hq])) i1
    intro q hq
    rcases i4 q hq with hq | rfl
    · exact hD q hq
    · exact hL _ (by simp)

theorem foldInsert_error {L D : List (A × B)} {e : Err} (h : L.foldlM insertPair D = .error e) :
    e = .assertionError := by
  induction L generalizing D with
  | nil => simp [List.foldlM, pure, Except.pure] at h
  | cons p L ih =>
    rw [List.foldlM_cons] at h
    cases hi : insertPair D p with
    | error e' =>
      rw [hi] at h
      obtain rfl : e' = e := by simpa [bind, Except.bind] using h
      exact insertPair_error hi
    | ok D1 => rw [hi] at h; exact ih h

variable [Monoid A] [Monoid B]

theorem genStep_ok {P P' : List (A × B)} (h : genStep P = .ok P') :
    (P'.map Prod.fst).Nodup ∧ (∀ p ∈ P, ∀ q ∈ P, p * q ∈ P') ∧ ∀ r ∈ P', ∃ p ∈ P, ∃ q ∈ P, r = p * q := by
  obtain ⟨h1, -, h3, h4⟩ := foldInsert_ok h (by simp)
  refine ⟨h1, fun p hp q hq => h3 _ (List.mem_flatMap.2 ⟨p, hp, List.mem_map.2 ⟨q, hq, rfl⟩⟩), fun r hr => ?_⟩
  rcases h4 r hr with h | h
  · simp at h
  · obtain ⟨p, hp, h⟩ := List.mem_flatMap.1 h
    obtain ⟨q, hq, rfl⟩ := List.mem_map.1 h
    exact ⟨p, hp, q, hq, rfl⟩

/-- The first pair stays the identity. -/
theorem genStep_head {P' P : List (A × B)} (h : genStep (1 :: P) = .ok P') : ∃ t, P' = 1 :: t := by
  unfold genStep at h
  rw [List.flatMap_cons, List.map_cons, List.cons_append, List.foldlM_cons] at h
  have h0 : insertPair ([] : List (A × B)) ((1 : A × B).1 * (1 : A × B).1, (1 : A × B).2 * (1 : A × B).2) = .ok [1] := by
    simp [insertPair, Prod.ext_iff]
  rw [h0] at h
  obtain ⟨-, h2, -, -⟩ := foldInsert_ok h (by simp)
  obtain ⟨t, ht⟩ := h2
  exact ⟨t, ht.symm⟩

theorem genStep_succeeds {P : List (A × B)} {M : Set (A × B)} (hmul : ∀ a ∈ M, ∀ b ∈ M, a * b ∈ M)
    (hM : ∀ a ∈ M, ∀ b ∈ M, a.1 = b.1 → a.2 = b.2) (hP : ∀ q ∈ P, q ∈ M) : ∃ P', genStep P = .ok P' := by
  refine foldInsert_succeeds (M := M) hM (by simp) ?_ (by simp)
  intro q hq
  obtain ⟨p, hp, h⟩ := List.mem_flatMap.1 hq
  obtain ⟨q', hq', rfl⟩ := List.mem_map.1 h
  exact hmul _ (hP p hp) _ (hP q' hq')

theorem nodup_of_keys {P : List (A × B)} (h : (P.map Prod.fst).Nodup) : P.Nodup := List.Nodup.of_map _ h

/-- The loop started with the identity and different operations ends with a closed list. -/
theorem pairLoop_ok {n : ℕ} {P R : List (A × B)} (hn : 0 < n) (hl : 1000 < P.length + n)
    (h1 : (P.map Prod.fst).Nodup) (hone : ∃ t, P = 1 :: t) (h : pairLoop n P = .ok R) :
    (R.map Prod.fst).Nodup ∧ (∀ p ∈ P, p ∈ R) ∧ (∀ p ∈ R, ∀ q ∈ R, p * q ∈ R) ∧ (∃ t, R = 1 :: t) ∧
    R.length < 1000 ∧ ∀ r ∈ R, r ∈ Submonoid.closure {p | p ∈ P} := by
  induction n generalizing P with
  | zero => omega
  | succ n ih =>
    simp only [pairLoop] at h
    cases hs : genStep P with
    | error e => rw [hs] at h; cases h
    | ok P' =>
      rw [hs] at h
      simp only at h
      obtain ⟨a1, a2, a3⟩ := genStep_ok hs
      obtain ⟨t, ht⟩ := hone
      have h1P : (1 : A × B) ∈ P := by rw [ht]; simp
      have hsub : ∀ p ∈ P, p ∈ P' := fun p hp => by simpa using a2 1 h1P p hp
      have hhead : ∃ t, P' = 1 :: t := by rw [ht] at hs; exact genStep_head hs
      have hcl : ∀ r ∈ P', r ∈ Submonoid.closure {p | p ∈ P} := by
        intro r hr
        obtain ⟨p, hp, q, hq, rfl⟩ := a3 r hr
        exact mul_mem (Submonoid.subset_closure hp) (Submonoid.subset_closure hq)
      split_ifs at h with c1 c2
      · obtain rfl : P' = R := by simpa using h
        have hback : ∀ p ∈ P', p ∈ P :=
          ((nodup_of_keys h1).subperm hsub).perm_of_length_le c2 |>.symm.subset
        exact ⟨a1, hsub, fun p hp q hq => a2 _ (hback p hp) _ (hback q hq), hhead, by omega, hcl⟩
      · obtain ⟨b1, b2, b3, b4, b5, b6⟩ := ih (P := P') (by omega) (by omega) a1 hhead h
        refine ⟨b1, fun p hp => b2 p (hsub p hp), b3, b4, b5, fun r hr => ?_⟩
        have : Submonoid.closure {p | p ∈ P'} ≤ Submonoid.closure {p | p ∈ P} :=
          Submonoid.closure_le.2 hcl
        exact this (b6 r hr)

theorem pairLoop_succeeds {n : ℕ} {P : List (A × B)} {M : Set (A × B)} (hmul : ∀ a ∈ M, ∀ b ∈ M, a * b ∈ M)
    (hM : ∀ a ∈ M, ∀ b ∈ M, a.1 = b.1 → a.2 = b.2) (hf : M.Finite) (hc : M.ncard < 1000)
    (hP : ∀ q ∈ P, q ∈ M) : ∃ R, pairLoop n P = .ok R := by
  induction n generalizing P with
  | zero => exact ⟨P, rfl⟩
  | succ n ih =>
    obtain ⟨P', hs⟩ := genStep_succeeds hmul hM hP
    obtain ⟨a1, a2, a3⟩ := genStep_ok hs
    have hP' : ∀ q ∈ P', q ∈ M := by
      intro r hr
      obtain ⟨p, hp, q, hq, rfl⟩ := a3 r hr
      exact hmul _ (hP p hp) _ (hP q hq)
    have hlen := nodup_length_le_ncard (nodup_of_keys a1) hP' hf
    simp only [pairLoop, hs]
    rw [if_neg (by omega)]
    split_ifs
    · exact ⟨_, rfl⟩
    · exact ih hP'

theorem pairLoop_error {n : ℕ} {P : List (A × B)} {e : Err} (h : pairLoop n P = .error e) : e = .assertionError := by
  induction n generalizing P with
  | zero => simp [pairLoop] at h
  | succ n ih =>
    simp only [pairLoop] at h
    cases hs : genStep P with
    | error e' =>
      rw [hs] at h
      obtain rfl : e' = e := by simpa using h
      exact foldInsert_error hs
    | ok P' =>
      rw [hs] at h
      simp only at h
      split_ifs at h
      · simpa using h.symm
      · exact ih h

theorem pairLoop_ne_nil {n : ℕ} {P R : List (A × B)} (hP : P ≠ []) (h : pairLoop n P = .ok R) : R ≠ [] := by
  induction n generalizing P with
  | zero => simp only [pairLoop, Except.ok.injEq] at h; exact h ▸ hP
  | succ n ih =>
    simp only [pairLoop] at h
    cases hs : genStep P with
    | error e => rw [hs] at h; cases h
    | ok P' =>
      have hne : P' ≠ [] := by
        obtain ⟨p, hp⟩ := List.exists_mem_of_ne_nil P hP
        exact List.ne_nil_of_mem ((genStep_ok hs).2.1 p hp p hp)
      rw [hs] at h
      simp only at h
      split_ifs at h
      · simp only [Except.ok.injEq] at h; exact h ▸ hne
      · exact ih hne h

end pairs

end TB.UR
