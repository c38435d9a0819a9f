import Mathlib.Data.Set.Card
import Mathlib.Algebra.Group.Submonoid.Basic
import Mathlib.Data.Finset.Union
import Mathlib.Tactic.Ring
import Mathlib.Tactic.Linarith
import Verif.Model.Symmetry
import Verif.Spec.Group

/-! Helper lemmas for the generation and construction of symmetries. -/

set_option linter.unusedSectionVars false

namespace TB

section lists
variable {α : Type} [DecidableEq α]

theorem mem_addNew {S : List α} {s x : α} : x ∈ addNew S s ↔ x ∈ S ∨ x = s := by
  unfold addNew
  split_ifs with h
  · constructor
    · exact Or.inl
    · rintro (h' | rfl) <;> assumption
  · simp

theorem nodup_addNew {S : List α} {s : α} (h : S.Nodup) : (addNew S s).Nodup := by
  unfold addNew
  split_ifs with h'
  · exact h
  · exact List.nodup_append.2 ⟨h, by simp, by
      intro a ha b hb; simp at hb; rintro rfl; exact h' (hb ▸ ha)⟩

theorem prefix_addNew (S : List α) (s : α) : S <+: addNew S s := by
  unfold addNew
  split_ifs
  · exact List.prefix_rfl
  · exact List.prefix_append _ _

theorem mem_foldl_addNew {L S : List α} {x : α} : x ∈ L.foldl addNew S ↔ x ∈ S ∨ x ∈ L := by
  induction L generalizing S with
  | nil => simp
  | cons a L ih => simp [ih, mem_addNew, or_assoc]

theorem nodup_foldl_addNew {L S : List α} (h : S.Nodup) : (L.foldl addNew S).Nodup := by
  induction L generalizing S with
  | nil => exact h
  | cons a L ih => exact ih (nodup_addNew h)

theorem prefix_foldl_addNew (L S : List α) : S <+: L.foldl addNew S := by
  induction L generalizing S with
  | nil => exact List.prefix_rfl
  | cons a L ih => exact (prefix_addNew S a).trans (ih _)

variable [Mul α]

theorem mem_genRound {S : List α} {x : α} :
    x ∈ genRound S ↔ x ∈ S ∨ ∃ a ∈ S, ∃ b ∈ S, a * b = x := by
  simp [genRound, mem_foldl_addNew]

theorem nodup_genRound {S : List α} (h : S.Nodup) : (genRound S).Nodup := nodup_foldl_addNew h

theorem prefix_genRound (S : List α) : S <+: genRound S := prefix_foldl_addNew _ _

theorem genRound_closed {S : List α} (h : (genRound S).length ≤ S.length) :
    genRound S = S ∧ ∀ a ∈ S, ∀ b ∈ S, a * b ∈ S := by
  have h1 : genRound S = S :=
    ((prefix_genRound S).eq_of_length (le_antisymm (prefix_genRound S).length_le h)).symm
  refine ⟨h1, fun a ha b hb => ?_⟩
  have : a * b ∈ genRound S := mem_genRound.2 (Or.inr ⟨a, ha, b, hb, rfl⟩)
  rwa [h1] at this

/-- The loop result, when there is one, is closed, duplicate free, has fewer than 200 elements and contains the
start list. -/
theorem genLoop_ok {n : ℕ} {S S' : List α} (hn : 0 < n) (hl : 200 < S.length + n) (hd : S.Nodup)
    (h : genLoop n S = .ok S') :
    (∀ a ∈ S', ∀ b ∈ S', a * b ∈ S') ∧ S'.Nodup ∧ S'.length < 200 ∧ S <+: S' := by
  induction n generalizing S with
  | zero => omega
  | succ n ih =>
    simp only [genLoop] at h
    split_ifs at h with h1 h2
    · have := genRound_closed h2
      obtain rfl : genRound S = S' := by simpa using h
      refine ⟨?_, nodup_genRound hd, by omega, prefix_genRound S⟩
      rw [this.1]; exact this.2
    · have := ih (S := genRound S) (by omega) (by omega) (nodup_genRound hd) h
      exact ⟨this.1, this.2.1, this.2.2.1, (prefix_genRound S).trans this.2.2.2⟩

/-- The loop never leaves a multiplicatively closed set. -/
theorem genLoop_subset {n : ℕ} {S S' : List α} {M : Set α} (hM : ∀ a ∈ M, ∀ b ∈ M, a * b ∈ M)
    (hS : ∀ a ∈ S, a ∈ M) (h : genLoop n S = .ok S') : ∀ a ∈ S', a ∈ M := by
  have hr : ∀ S : List α, (∀ a ∈ S, a ∈ M) → ∀ a ∈ genRound S, a ∈ M := by
    intro S hS x hx
    rcases mem_genRound.1 hx with hx | ⟨a, ha, b, hb, rfl⟩
    · exact hS _ hx
    · exact hM _ (hS _ ha) _ (hS _ hb)
  induction n generalizing S with
  | zero => simp only [genLoop, Except.ok.injEq] at h; subst h; exact hS
  | succ n ih =>
    simp only [genLoop] at h
    split_ifs at h with h1 h2
    · obtain rfl : genRound S = S' := by simpa using h
      exact hr S hS
    · exact ih (hr S hS) h

theorem nodup_length_le_ncard {S : List α} {M : Set α} (hd : S.Nodup) (hS : ∀ a ∈ S, a ∈ M)
    (hf : M.Finite) : S.length ≤ M.ncard := by
  rw [← List.toFinset_card_of_nodup hd, ← Set.ncard_coe_finset]
  exact Set.ncard_le_ncard (by intro x hx; exact hS x (by simpa using hx)) hf

theorem genLoop_succeeds {n : ℕ} {S : List α} {M : Set α} (hM : ∀ a ∈ M, ∀ b ∈ M, a * b ∈ M)
    (hf : M.Finite) (hc : M.ncard < 200) (hd : S.Nodup) (hS : ∀ a ∈ S, a ∈ M) :
    ∃ S', genLoop n S = .ok S' := by
  induction n generalizing S with
  | zero => exact ⟨S, rfl⟩
  | succ n ih =>
    have hr : ∀ a ∈ genRound S, a ∈ M := by
      intro x hx
      rcases mem_genRound.1 hx with hx | ⟨a, ha, b, hb, rfl⟩
      · exact hS _ hx
      · exact hM _ (hS _ ha) _ (hS _ hb)
    have hlen := nodup_length_le_ncard (nodup_genRound hd) hr hf
    simp only [genLoop]
    rw [if_neg (by omega)]
    split_ifs with h2
    · exact ⟨_, rfl⟩
    · exact ih (nodup_genRound hd) hr

theorem genLoop_error {n : ℕ} {S : List α} {e : Err} (h : genLoop n S = .error e) : e = .valueError := by
  induction n generalizing S with
  | zero => simp [genLoop] at h
  | succ n ih =>
    simp only [genLoop] at h
    split_ifs at h with h1 h2
    · simpa using h.symm
    · exact ih h

end lists

section mats
variable {K : Type} [Field K] [LinearOrder K] [IsStrictOrderedRing K] {d : ℕ}

theorem pcZero_iff {A B : List (Mat K d)} : pcZero A B = true ↔ ∀ a ∈ A, a ∈ B := by
  simp [pcZero]

theorem det_neg_odd (hd : d % 2 = 1) (s : Mat K d) : (-s).det = -s.det := by
  rw [Matrix.det_neg, Fintype.card_fin, Odd.neg_one_pow (Nat.odd_iff.2 hd)]; ring

theorem abs_det_neg (s : Mat K d) : |(-s).det| = |s.det| := by
  rw [Matrix.det_neg, abs_mul, abs_pow, abs_neg, abs_one, one_pow, one_mul]

/-- When does the constructor succeed? -/
theorem mkSym_ok_iff {S : List (Mat K d)} {inv : Bool} :
    (∃ σ, mkSym S inv = .ok σ) ↔ S.head? = some 1 ∧ ∀ s ∈ S, |s.det| = 1 := by
  cases S with
  | nil => simp [mkSym]
  | cons s0 t =>
    simp only [mkSym, List.head?_cons, Option.some.injEq]
    by_cases h0 : s0 = 1
    · rw [if_neg (by simpa using h0)]
      by_cases h1 : (s0 :: t).any (fun s => decide (|s.det| ≠ 1)) = true
      · rw [if_pos h1]
        constructor
        · rintro ⟨σ, h⟩; cases h
        · rintro ⟨-, h⟩
          obtain ⟨s, hs, h'⟩ := List.any_eq_true.1 h1
          exact absurd (h s hs) (by simpa using h')
      · rw [if_neg h1]
        refine ⟨fun _ => ⟨h0, ?_⟩, fun _ => ?_⟩
        · intro s hs
          by_contra h
          exact h1 (List.any_eq_true.2 ⟨s, hs, by simpa using h⟩)
        · split_ifs <;> exact ⟨_, rfl⟩
    · rw [if_pos (by simpa using h0)]
      simp [h0]

theorem mkSym_error {S : List (Mat K d)} {inv : Bool} {e : Err} (hS : S ≠ [])
    (h : mkSym S inv = .error e) : e = .valueError := by
  cases S with
  | nil => exact absurd rfl hS
  | cons s0 t =>
    simp only [mkSym] at h
    split_ifs at h <;> simpa using h.symm

/-- The possible results of the constructor. -/
theorem mkSym_cases {S : List (Mat K d)} {inv : Bool} {σ : Sym K d} (h : mkSym S inv = .ok σ) :
    S.head? = some 1 ∧ (∀ s ∈ S, |s.det| = 1) ∧
    (((∀ s ∈ S, s ∈ S.map (fun s => -s)) ∧ d % 2 = 1 ∧ σ = ⟨S.filter (fun s => decide (0 < s.det)), true⟩) ∨
     ((∀ s ∈ S, s ∈ S.map (fun s => -s)) ∧ d % 2 = 0 ∧ σ = ⟨S, inv⟩) ∨
     (¬ (∀ s ∈ S, s ∈ S.map (fun s => -s)) ∧ inv = true ∧ d % 2 = 0 ∧ σ = ⟨S ++ S.map (fun s => -s), false⟩) ∨
     (¬ (∀ s ∈ S, s ∈ S.map (fun s => -s)) ∧ (inv = false ∨ d % 2 = 1) ∧ σ = ⟨S, inv⟩)) := by
  have h0 := mkSym_ok_iff.1 ⟨σ, h⟩
  refine ⟨h0.1, h0.2, ?_⟩
  cases S with
  | nil => simp [mkSym] at h
  | cons s0 t =>
    simp only [mkSym] at h
    rw [if_neg (by simpa using h0.1), if_neg (by
      intro h1
      obtain ⟨s, hs, h'⟩ := List.any_eq_true.1 h1
      exact absurd (h0.2 s hs) (by simpa using h'))] at h
    by_cases hp : pcZero (s0 :: t) ((s0 :: t).map (fun s => -s)) = true
    · rw [if_pos hp] at h
      rw [pcZero_iff] at hp
      split_ifs at h with hd
      · exact Or.inl ⟨hp, hd, (Except.ok.inj h).symm⟩
      · exact Or.inr (Or.inl ⟨hp, by omega, (Except.ok.inj h).symm⟩)
    · rw [if_neg hp] at h
      rw [pcZero_iff] at hp
      split_ifs at h with hd
      · simp at hd
        exact Or.inr (Or.inr (Or.inl ⟨hp, hd.1, hd.2, (Except.ok.inj h).symm⟩))
      · refine Or.inr (Or.inr (Or.inr ⟨hp, ?_, (Except.ok.inj h).symm⟩))
        cases inv
        · exact Or.inl rfl
        · right; simp at hd; exact hd

theorem mem_map_neg {S : List (Mat K d)} {x : Mat K d} : x ∈ S.map (fun s => -s) ↔ -x ∈ S := by
  constructor
  · intro h
    obtain ⟨s, hs, rfl⟩ := List.mem_map.1 h
    simpa using hs
  · intro h
    exact List.mem_map.2 ⟨-x, h, by simp⟩

theorem mem_ops {σ : Sym K d} {x : Mat K d} :
    x ∈ σ.ops ↔ x ∈ σ.S ∨ (σ.inversion = true ∧ -x ∈ σ.S) := by
  unfold Sym.ops
  split_ifs with h
  · rw [List.mem_append, mem_map_neg]; simp [h]
  · simp [h]

theorem length_ops (σ : Sym K d) : σ.ops.length = σ.len := by
  unfold Sym.ops Sym.len
  split_ifs <;> simp [Nat.mul_two]

/-- The constructor keeps the operations. -/
theorem mkSym_mem_ops {S : List (Mat K d)} {inv : Bool} {σ : Sym K d} (h : mkSym S inv = .ok σ)
    (x : Mat K d) : x ∈ σ.ops ↔ x ∈ S ∨ (inv = true ∧ -x ∈ S) := by
  obtain ⟨h1, hdet, h | h | h | h⟩ := mkSym_cases h
  · obtain ⟨hneg, hd, rfl⟩ := h
    simp only [mem_map_neg] at hneg
    simp only [mem_ops, List.mem_filter, decide_eq_true_eq, det_neg_odd hd, true_and]
    have hs : ∀ x, -x ∈ S → x ∈ S := fun x hx => by simpa using hneg _ hx
    constructor
    · rintro (⟨h, -⟩ | ⟨h, -⟩)
      · exact Or.inl h
      · exact Or.inl (hs x h)
    · intro h
      have hx : x ∈ S := by
        rcases h with h | ⟨-, h⟩
        · exact h
        · exact hs x h
      rcases lt_trichotomy x.det 0 with h0 | h0 | h0
      · right; exact ⟨hneg x hx, by simpa using h0⟩
      · have := hdet x hx; rw [h0] at this; simp at this
      · left; exact ⟨hx, h0⟩
  · obtain ⟨hneg, hd, rfl⟩ := h
    simp [mem_ops]
  · obtain ⟨hneg, hi, hd, rfl⟩ := h
    subst hi
    simp only [mem_ops, List.mem_append, mem_map_neg]; simp
  · obtain ⟨hneg, hd, rfl⟩ := h
    simp [mem_ops]

/-- Inverses exist in a finite closed set of invertible matrices. -/
theorem inv_mem_of_closed {S : List (Mat K d)} (hc : ∀ a ∈ S, ∀ b ∈ S, a * b ∈ S) (h1 : 1 ∈ S)
    (hdet : ∀ s ∈ S, |s.det| = 1) : ∀ a ∈ S, ∃ b ∈ S, a * b = 1 ∧ b * a = 1 := by
  intro a ha
  have hu : IsUnit a.det := by
    rw [isUnit_iff_ne_zero]; intro h; have := hdet a ha; rw [h] at this; simp at this
  have hinj : ∀ b c : Mat K d, a * b = a * c → b = c := by
    intro b c h
    have := congrArg (fun m => a⁻¹ * m) h
    simpa [← Matrix.mul_assoc, Matrix.nonsing_inv_mul a hu] using this
  have hsurj := Finset.surj_on_of_inj_on_of_card_le (s := S.toFinset) (t := S.toFinset)
    (fun b _ => a * b) (by intro b hb; simp at hb ⊢; exact hc a ha b hb)
    (by intro b c _ _ h; exact hinj b c h) le_rfl 1 (by simpa using h1)
  obtain ⟨b, hb, h⟩ := hsurj
  exact ⟨b, by simpa using hb, h.symm, mul_eq_one_comm.1 h.symm⟩

theorem foldl_addNew_ne_nil {α : Type} [DecidableEq α] {L : List α} (h : L ≠ []) :
    L.foldl addNew [] ≠ [] := by
  intro h0
  obtain ⟨a, ha⟩ := List.exists_mem_of_ne_nil L h
  have : a ∈ L.foldl addNew [] := mem_foldl_addNew.2 (Or.inr ha)
  rw [h0] at this; simp at this

/-- Master description of a successful `from_generator`: the list passed to the constructor. -/
theorem fromGenerator_ok {G : List (Mat K d)} {inv : Bool} {σ : Sym K d}
    (h : fromGenerator G inv = .ok σ) :
    ∃ S, mkSym S inv = .ok σ ∧ G ≠ [] ∧ (∀ g ∈ G, |g.det| = 1) ∧ S.Nodup ∧ 1 ∈ S ∧
      (∀ g ∈ G, g ∈ S) ∧ (∀ a ∈ S, ∀ b ∈ S, a * b ∈ S) ∧ S.length < 200 ∧
      (∀ s ∈ S, s ∈ Submonoid.closure {g | g ∈ G}) := by
  unfold fromGenerator at h
  split_ifs at h with h0
  have hG : G ≠ [] := by simpa using h0
  simp only at h
  split_ifs at h with h1 h2
  · have hall : ∀ g ∈ G, g = 1 := by simpa [List.isEmpty_iff] using h1
    refine ⟨[1], h, hG, ?_, by simp, by simp, ?_, by simp, by simp, ?_⟩
    · intro g hg; rw [hall g hg]; simp
    · intro g hg; simp [hall g hg]
    · intro s hs; simp at hs; subst hs; exact Submonoid.one_mem _
  · generalize hG1 : G.filter (fun s => decide (s ≠ 1)) = G1 at h h1 h2
    have hmem : ∀ x, x ∈ G1 ↔ x ∈ G ∧ x ≠ 1 := by intro x; rw [← hG1]; simp
    have hG1ne : G1 ≠ [] := by simpa using h1
    split at h
    · cases h
    · rename_i S hS
      have hnd : (1 :: G1.foldl addNew []).Nodup := by
        refine List.nodup_cons.2 ⟨?_, nodup_foldl_addNew (by simp)⟩
        rw [mem_foldl_addNew]; simp [hmem]
      obtain ⟨hcl, hndS, hlen, hpre⟩ := genLoop_ok (by omega) (by simp) hnd hS
      refine ⟨S, h, hG, ?_, hndS, hpre.subset (by simp), ?_, hcl, hlen, ?_⟩
      · intro g hg
        by_cases hg1 : g = 1
        · simp [hg1]
        · by_contra hdet
          exact h2 (List.any_eq_true.2 ⟨g, (hmem g).2 ⟨hg, hg1⟩, by simpa using hdet⟩)
      · intro g hg
        apply hpre.subset
        by_cases hg1 : g = 1
        · simp [hg1]
        · simp [mem_foldl_addNew, hmem, hg, hg1]
      · refine genLoop_subset (M := (Submonoid.closure {g | g ∈ G} : Set (Mat K d))) ?_ ?_ hS
        · intro a ha b hb; exact Submonoid.mul_mem _ ha hb
        · intro a ha
          rw [List.mem_cons, mem_foldl_addNew] at ha
          rcases ha with rfl | ha | ha
          · exact Submonoid.one_mem _
          · simp at ha
          · exact Submonoid.subset_closure ((hmem a).1 ha).1

/-- `from_generator` succeeds on small finite groups. -/
theorem fromGenerator_succeeds {G : List (Mat K d)} {inv : Bool} (hG : G ≠ [])
    (hdet : ∀ g ∈ G, |g.det| = 1)
    (hf : (Submonoid.closure {g | g ∈ G} : Set (Mat K d)).Finite)
    (hc : (Submonoid.closure {g | g ∈ G} : Set (Mat K d)).ncard < 200) :
    ∃ σ, fromGenerator G inv = .ok σ := by
  have hdetc : ∀ x ∈ Submonoid.closure {g | g ∈ G}, |x.det| = 1 := by
    intro x hx
    induction hx using Submonoid.closure_induction with
    | mem x hx => exact hdet x hx
    | one => simp
    | mul x y _ _ hx hy => rw [Matrix.det_mul, abs_mul, hx, hy, one_mul]
  unfold fromGenerator
  rw [if_neg (by simpa using hG)]
  simp only
  split_ifs with h1 h2
  · exact mkSym_ok_iff.2 (by simp)
  · obtain ⟨s, hs, h'⟩ := List.any_eq_true.1 h2
    exact absurd (hdet s (List.mem_of_mem_filter hs)) (by simpa using h')
  · generalize hG1 : G.filter (fun s => decide (s ≠ 1)) = G1 at h1 h2
    have hmem : ∀ x, x ∈ G1 ↔ x ∈ G ∧ x ≠ 1 := by intro x; rw [← hG1]; simp
    have hnd : (1 :: G1.foldl addNew []).Nodup := by
      refine List.nodup_cons.2 ⟨?_, nodup_foldl_addNew (by simp)⟩
      rw [mem_foldl_addNew]; simp [hmem]
    have hsub : ∀ a ∈ (1 :: G1.foldl addNew []), a ∈ (Submonoid.closure {g | g ∈ G} : Set (Mat K d)) := by
      intro a ha
      rw [List.mem_cons, mem_foldl_addNew] at ha
      rcases ha with rfl | ha | ha
      · exact Submonoid.one_mem _
      · simp at ha
      · exact Submonoid.subset_closure ((hmem a).1 ha).1
    have hM : ∀ a ∈ (Submonoid.closure {g | g ∈ G} : Set (Mat K d)),
        ∀ b ∈ (Submonoid.closure {g | g ∈ G} : Set (Mat K d)),
        a * b ∈ (Submonoid.closure {g | g ∈ G} : Set (Mat K d)) :=
      fun a ha b hb => Submonoid.mul_mem _ ha hb
    obtain ⟨S, hS⟩ := genLoop_succeeds (n := 200) hM hf hc hnd hsub
    rw [hS]
    have hpre := (genLoop_ok (by omega) (by simp) hnd hS).2.2.2
    refine mkSym_ok_iff.2 ⟨?_, fun s hs => hdetc s (genLoop_subset hM hsub hS s hs)⟩
    obtain ⟨t, rfl⟩ := hpre
    simp

theorem fromGenerator_error {G : List (Mat K d)} {inv : Bool} {e : Err} (hG : G ≠ [])
    (h : fromGenerator G inv = .error e) : e = .valueError := by
  unfold fromGenerator at h
  rw [if_neg (by simpa using hG)] at h
  simp only at h
  split_ifs at h with h1 h2
  · exact mkSym_error (by simp) h
  · simpa using h.symm
  · split at h
    · rename_i e' he
      have := genLoop_error he
      subst this; simpa using h.symm
    · rename_i S hS
      refine mkSym_error ?_ h
      have hnd : (1 :: (G.filter (fun s => decide (s ≠ 1))).foldl addNew []).Nodup := by
        refine List.nodup_cons.2 ⟨?_, nodup_foldl_addNew (by simp)⟩
        rw [mem_foldl_addNew]; simp
      have hpre := (genLoop_ok (by omega) (by simp) hnd hS).2.2.2
      obtain ⟨t, rfl⟩ := hpre
      simp

end mats
end TB

namespace TB
section more
variable {K : Type} [Field K] [LinearOrder K] [IsStrictOrderedRing K] {d : ℕ}

/-- A symmetry object that some constructor call produced (the reachable object states). -/
def Sym.Constructed (σ : Sym K d) : Prop := ∃ S inv, mkSym S inv = .ok σ

/-- Characterisation of the argument pairs on which the constructor acts as the identity. -/
theorem mkSym_fix_iff {S : List (Mat K d)} {inv : Bool} :
    mkSym S inv = .ok ⟨S, inv⟩ ↔ S.head? = some 1 ∧ (∀ s ∈ S, |s.det| = 1) ∧
      ((∀ s ∈ S, -s ∈ S) → d % 2 = 0) ∧ (¬ (∀ s ∈ S, -s ∈ S) → inv = false ∨ d % 2 = 1) := by
  constructor
  · intro h
    obtain ⟨h1, h2, h3⟩ := mkSym_cases h
    simp only [mem_map_neg] at h3
    refine ⟨h1, h2, ?_⟩
    rcases h3 with ⟨hn, hd, he⟩ | ⟨hn, hd, he⟩ | ⟨hn, hi, hd, he⟩ | ⟨hn, hd, he⟩
    · exfalso
      have h1S : (1 : Mat K d) ∈ S := List.mem_of_head? h1
      have := hn 1 h1S
      rw [show S = S.filter (fun s => decide (0 < s.det)) from congrArg Sym.S he] at this
      have := (List.mem_filter.1 this).2
      rw [decide_eq_true_eq, det_neg_odd hd, Matrix.det_one] at this
      linarith
    · exact ⟨fun _ => hd, fun h => absurd hn h⟩
    · exfalso
      have : inv = false := congrArg Sym.inversion he
      rw [hi] at this; cases this
    · exact ⟨fun h => absurd h hn, fun _ => hd⟩
  · rintro ⟨h1, h2, h3, h4⟩
    obtain ⟨σ, hσ⟩ := (mkSym_ok_iff (inv := inv)).2 ⟨h1, h2⟩
    rw [hσ]
    obtain ⟨-, -, h⟩ := mkSym_cases hσ
    simp only [mem_map_neg] at h
    rcases h with ⟨hn, hd, he⟩ | ⟨hn, hd, he⟩ | ⟨hn, hi, hd, he⟩ | ⟨hn, hd, he⟩
    · have := h3 hn; omega
    · rw [he]
    · rcases h4 hn with h | h
      · rw [hi] at h; cases h
      · omega
    · rw [he]

theorem Sym.Constructed.fix {σ : Sym K d} (h : σ.Constructed) : mkSym σ.S σ.inversion = .ok σ := by
  obtain ⟨S, inv, h⟩ := h
  obtain ⟨h1, h2, h3⟩ := mkSym_cases h
  simp only [mem_map_neg] at h3
  have h1S : (1 : Mat K d) ∈ S := List.mem_of_head? h1
  rcases h3 with ⟨hn, hd, rfl⟩ | ⟨hn, hd, rfl⟩ | ⟨hn, hi, hd, rfl⟩ | ⟨hn, hd, rfl⟩
  · refine mkSym_fix_iff.2 ⟨?_, ?_, ?_, ?_⟩
    · cases S with
      | nil => simp at h1
      | cons a t => simp at h1; subst h1; simp
    · intro s hs; exact h2 s (List.mem_of_mem_filter hs)
    · intro hneg
      have := hneg 1 (by simp [h1S])
      have := (List.mem_filter.1 this).2
      rw [decide_eq_true_eq, det_neg_odd hd, Matrix.det_one] at this
      linarith
    · intro _; exact Or.inr hd
  · exact mkSym_fix_iff.2 ⟨h1, h2, fun _ => hd, fun h => absurd hn h⟩
  · refine mkSym_fix_iff.2 ⟨?_, ?_, fun _ => hd, fun _ => Or.inl rfl⟩
    · cases S with
      | nil => simp at h1
      | cons a t => simpa using h1
    · intro s hs
      rcases List.mem_append.1 hs with hs | hs
      · exact h2 s hs
      · rw [mem_map_neg] at hs; rw [← abs_det_neg]; exact h2 _ hs
  · exact mkSym_fix_iff.2 ⟨h1, h2, fun h => absurd h hn, fun _ => hd⟩

theorem Sym.constructed_iff {σ : Sym K d} :
    σ.Constructed ↔ mkSym σ.S σ.inversion = .ok σ :=
  ⟨fun h => h.fix, fun h => ⟨_, _, h⟩⟩

theorem Sym.Constructed.one_mem {σ : Sym K d} (h : σ.Constructed) : 1 ∈ σ.S :=
  List.mem_of_head? (mkSym_cases h.fix).1

theorem Sym.Constructed.det {σ : Sym K d} (h : σ.Constructed) : ∀ s ∈ σ.S, |s.det| = 1 :=
  (mkSym_cases h.fix).2.1

theorem Sym.Constructed.det_ops {σ : Sym K d} (h : σ.Constructed) : ∀ s ∈ σ.ops, |s.det| = 1 := by
  intro s hs
  rcases mem_ops.1 hs with hs | ⟨-, hs⟩
  · exact h.det s hs
  · rw [← abs_det_neg]; exact h.det _ hs

/-- The constructor commutes with an injective, odd, unital map that keeps `|det|`. -/
theorem Sym.Constructed.map {σ : Sym K d} (h : σ.Constructed) {φ : Mat K d → Mat K d}
    (h1 : φ 1 = 1) (hneg : ∀ s, φ (-s) = -φ s)
    (hinj : ∀ a b : Mat K d, |a.det| = 1 → |b.det| = 1 → φ a = φ b → a = b)
    (hdet : ∀ s ∈ σ.S, |(φ s).det| = 1) :
    mkSym (σ.S.map φ) σ.inversion = .ok ⟨σ.S.map φ, σ.inversion⟩ := by
  obtain ⟨a1, a2, a3, a4⟩ := (mkSym_fix_iff (S := σ.S) (inv := σ.inversion)).1 h.fix
  have key : (∀ s ∈ σ.S.map φ, -s ∈ σ.S.map φ) ↔ (∀ s ∈ σ.S, -s ∈ σ.S) := by
    constructor
    · intro h s hs
      obtain ⟨t, ht, he⟩ := List.mem_map.1 (h (φ s) (List.mem_map_of_mem hs))
      rw [← hneg] at he
      have := hinj t (-s) (a2 t ht) (by rw [abs_det_neg]; exact a2 s hs) he
      exact this ▸ ht
    · intro h s hs
      obtain ⟨t, ht, rfl⟩ := List.mem_map.1 hs
      rw [← hneg]; exact List.mem_map_of_mem (h t ht)
  refine mkSym_fix_iff.2 ⟨?_, ?_, ?_, ?_⟩
  · rw [List.head?_map, a1]; simp [h1]
  · intro s hs
    obtain ⟨t, ht, rfl⟩ := List.mem_map.1 hs
    exact hdet t ht
  · rw [key]; exact a3
  · rw [key]; exact a4

theorem mem_ops_map {σ : Sym K d} {φ : Mat K d → Mat K d} (hneg : ∀ s, φ (-s) = -φ s) {x : Mat K d} :
    x ∈ Sym.ops ⟨σ.S.map φ, σ.inversion⟩ ↔ ∃ s ∈ σ.ops, x = φ s := by
  simp only [mem_ops, List.mem_map]
  constructor
  · rintro (⟨s, hs, rfl⟩ | ⟨hi, s, hs, he⟩)
    · exact ⟨s, Or.inl hs, rfl⟩
    · exact ⟨-s, Or.inr ⟨hi, by simpa using hs⟩, by rw [hneg, he, neg_neg]⟩
  · rintro ⟨s, hs | ⟨hi, hs⟩, rfl⟩
    · exact Or.inl ⟨s, hs, rfl⟩
    · exact Or.inr ⟨hi, -s, hs, hneg s⟩

theorem isUnit_det_of_abs {s : Mat K d} (h : |s.det| = 1) : IsUnit s.det := by
  rw [isUnit_iff_ne_zero]; intro h'; rw [h'] at h; simp at h

/-- turn an evaluated comparison into an equation (used for concrete cases) -/
theorem ok_eq {x : Except Err (Sym K d)} {S : List (Mat K d)} {i : Bool}
    (h : okAnd x (fun τ => decide (τ.S = S ∧ τ.inversion = i)) = true) : x = .ok ⟨S, i⟩ := by
  obtain ⟨τ, hτ, h'⟩ := okAnd_iff.1 h
  simp only [decide_eq_true_eq] at h'
  rw [hτ, ← h'.1, ← h'.2]

end more
end TB
