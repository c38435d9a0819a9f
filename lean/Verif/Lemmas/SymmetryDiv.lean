import Verif.Props.SymmetryClasses
import Mathlib.Algebra.Group.Subgroup.Basic
import Mathlib.Tactic.Group

/-! Helper lemmas for the division of symmetries. -/

set_option linter.unusedSectionVars false

namespace TB
open Spec

/-- If `Q` meets every left coset of a conjugate of `H` exactly once, then it does so for `H` itself. -/
theorem transversal_conj {Γ : Type} [Group Γ] (G H Q : Set Γ)
    (hGm : ∀ a ∈ G, ∀ b ∈ G, a * b ∈ G) (hGi : ∀ a ∈ G, a⁻¹ ∈ G)
    (hHm : ∀ a ∈ H, ∀ b ∈ H, a * b ∈ H) (hHi : ∀ a ∈ H, a⁻¹ ∈ H)
    (hQm : ∀ a ∈ Q, ∀ b ∈ Q, a * b ∈ Q) (hQi : ∀ a ∈ Q, a⁻¹ ∈ Q)
    (hQG : ∀ a ∈ Q, a ∈ G) (x : Γ) (hx : x ∈ G)
    (h : ∀ g ∈ G, ∃! q, q ∈ Q ∧ x⁻¹ * (q⁻¹ * g) * x ∈ H) :
    ∀ g ∈ G, ∃! q, q ∈ Q ∧ q⁻¹ * g ∈ H := by
  -- x⁻¹ = q0 h'
  obtain ⟨q0, ⟨hq0, hh⟩, -⟩ := h x⁻¹ (hGi x hx)
  have hh0 : x⁻¹ * q0⁻¹ ∈ H := by
    have : x⁻¹ * (q0⁻¹ * x⁻¹) * x = x⁻¹ * q0⁻¹ := by group
    rwa [this] at hh
  -- H = q0 H' q0⁻¹
  have key : ∀ y, q0 * y * q0⁻¹ ∈ H ↔ x⁻¹ * y * x ∈ H := by
    intro y
    constructor
    · intro hy
      have h1 := hHm _ (hHm _ hh0 _ hy) _ (hHi _ hh0)
      have : x⁻¹ * q0⁻¹ * (q0 * y * q0⁻¹) * (x⁻¹ * q0⁻¹)⁻¹ = x⁻¹ * y * x := by group
      rwa [this] at h1
    · intro hy
      have h1 := hHm _ (hHm _ (hHi _ hh0) _ hy) _ hh0
      have : (x⁻¹ * q0⁻¹)⁻¹ * (x⁻¹ * y * x) * (x⁻¹ * q0⁻¹) = q0 * y * q0⁻¹ := by group
      rwa [this] at h1
  intro g hg
  obtain ⟨q1, ⟨hq1, hm⟩, hu⟩ := h (g * q0) (hGm _ hg _ (hQG _ hq0))
  refine ⟨q1 * q0⁻¹, ⟨hQm _ hq1 _ (hQi _ hq0), ?_⟩, ?_⟩
  · have := (key _).2 hm
    have e : q0 * (q1⁻¹ * (g * q0)) * q0⁻¹ = (q1 * q0⁻¹)⁻¹ * g := by group
    rwa [e] at this
  · rintro q ⟨hq, hqm⟩
    have := hu (q * q0) ⟨hQm _ hq _ hq0, (key _).1 (by
      have e : q0 * ((q * q0)⁻¹ * (g * q0)) * q0⁻¹ = q⁻¹ * g := by group
      rw [e]; exact hqm)⟩
    rw [← this]; group

variable {K : Type} [Field K] [LinearOrder K] [IsStrictOrderedRing K] {d : ℕ}

theorem Spec.IsMatGroup.inv {G : List (Mat K d)} (hg : IsMatGroup G) {a : Mat K d} (ha : a ∈ G) :
    a⁻¹ ∈ G ∧ a * a⁻¹ = 1 ∧ a⁻¹ * a = 1 := by
  obtain ⟨b, hb, hab, hba⟩ := hg.inv_mem a ha
  rw [Matrix.inv_eq_right_inv hab]
  exact ⟨hb, hab, hba⟩

/-- The matrix version of `transversal_conj`. -/
theorem transversal_conj_mat {G H Q : List (Mat K d)} (hG : IsMatGroup G) (hH : IsMatGroup H) (hQ : IsMatGroup Q)
    (hQG : ∀ a ∈ Q, a ∈ G) (x : Mat K d) (hx : x ∈ G)
    (h : ∀ g ∈ G, ∃! q, q ∈ Q ∧ x⁻¹ * (q⁻¹ * g) * x ∈ H) :
    ∀ g ∈ G, ∃! q, q ∈ Q ∧ q⁻¹ * g ∈ H := by
  have lift : ∀ a ∈ G, ∃ u : (Mat K d)ˣ, (u : Mat K d) = a := by
    intro a ha
    obtain ⟨-, h1, h2⟩ := hG.inv ha
    exact ⟨⟨a, a⁻¹, h1, h2⟩, rfl⟩
  have hinv : ∀ u : (Mat K d)ˣ, ((u⁻¹ : (Mat K d)ˣ) : Mat K d) = (u : Mat K d)⁻¹ := by
    intro u
    exact (Matrix.inv_eq_right_inv (by simp)).symm
  obtain ⟨ux, rfl⟩ := lift x hx
  have conv : ∀ L : List (Mat K d), IsMatGroup L →
      (∀ a ∈ {u : (Mat K d)ˣ | (u : Mat K d) ∈ L}, a⁻¹ ∈ {u : (Mat K d)ˣ | (u : Mat K d) ∈ L}) := by
    intro L hL a ha
    have : (a : Mat K d) ∈ L := ha
    show ((a⁻¹ : (Mat K d)ˣ) : Mat K d) ∈ L
    rw [hinv]; exact (hL.inv this).1
  have mulc : ∀ L : List (Mat K d), IsMatGroup L →
      (∀ a ∈ {u : (Mat K d)ˣ | (u : Mat K d) ∈ L}, ∀ b ∈ {u : (Mat K d)ˣ | (u : Mat K d) ∈ L},
        a * b ∈ {u : (Mat K d)ˣ | (u : Mat K d) ∈ L}) := by
    intro L hL a ha b hb
    exact hL.mul_mem _ ha _ hb
  have := transversal_conj {u : (Mat K d)ˣ | (u : Mat K d) ∈ G} {u | (u : Mat K d) ∈ H} {u | (u : Mat K d) ∈ Q}
    (mulc G hG) (conv G hG) (mulc H hH) (conv H hH) (mulc Q hQ) (conv Q hQ) (fun a ha => hQG _ ha) ux hx (by
      intro g hg
      obtain ⟨q, ⟨hq, hm⟩, hu⟩ := h g hg
      obtain ⟨uq, rfl⟩ := lift q (hQG q hq)
      refine ⟨uq, ⟨hq, ?_⟩, ?_⟩
      · show ((ux⁻¹ * (uq⁻¹ * g) * ux : (Mat K d)ˣ) : Mat K d) ∈ H
        simpa [hinv] using hm
      · rintro q' ⟨hq', hm'⟩
        have hm'' : ((ux⁻¹ * (q'⁻¹ * g) * ux : (Mat K d)ˣ) : Mat K d) ∈ H := hm'
        exact Units.ext (hu q' ⟨hq', by simpa [hinv] using hm''⟩))
  intro g hg
  obtain ⟨ug, rfl⟩ := lift g hg
  obtain ⟨q, ⟨hq, hm⟩, hu⟩ := this ug hg
  have hm' : ((q⁻¹ * ug : (Mat K d)ˣ) : Mat K d) ∈ H := hm
  refine ⟨q, ⟨hq, by simpa [hinv] using hm'⟩, ?_⟩
  rintro q' ⟨hq', hmq⟩
  obtain ⟨uq', rfl⟩ := lift q' (hQG q' hq')
  have := hu uq' ⟨hq', by
    show ((uq'⁻¹ * ug : (Mat K d)ˣ) : Mat K d) ∈ H
    simpa [hinv] using hmq⟩
  rw [this]

/-! ### the loop -/

theorem ordSelect_subset (n : ℕ) (l : List (Mat K d × Mat K d)) : ∀ a ∈ ordSelect n l, a ∈ l.map Prod.snd := by
  induction n generalizing l with
  | zero => simp [ordSelect]
  | succ n ih =>
    intro a ha
    simp only [ordSelect] at ha
    split_ifs at ha with h
    · have := ih _ a ha
      simpa [List.map_map, Function.comp_def] using this
    · obtain ⟨p, hp, rfl⟩ := List.mem_map.1 ha
      obtain ⟨q, hq, rfl⟩ := List.mem_map.1 (List.mem_filter.1 hp).1
      exact List.mem_map.2 ⟨q, hq, rfl⟩

theorem ordSelect_sublist (n : ℕ) (l : List (Mat K d × Mat K d)) : (ordSelect n l).Sublist (l.map Prod.snd) := by
  induction n generalizing l with
  | zero => simp [ordSelect]
  | succ n ih =>
    simp only [ordSelect]
    split_ifs with h
    · have := ih (l.map fun p => (p.1 * p.2, p.2))
      simpa [List.map_map, Function.comp_def] using this
    · have := (List.filter_sublist (p := fun p : Mat K d × Mat K d => decide (p.1 = 1))
        (l := l.map fun p => (p.1 * p.2, p.2))).map Prod.snd
      simpa [List.map_map, Function.comp_def] using this

theorem mapM_ok {α β : Type} {f : α → Except Err β} {l : List α} {r : List β} (h : l.mapM f = .ok r) :
    List.Forall₂ (fun a b => f a = .ok b) l r := by
  induction l generalizing r with
  | nil =>
    simp only [List.mapM_nil] at h
    cases h
    exact List.Forall₂.nil
  | cons a l ih =>
    rw [List.mapM_cons] at h
    cases ha : f a with
    | error e => rw [ha] at h; cases h
    | ok b =>
      rw [ha] at h
      cases hl : l.mapM f with
      | error e => rw [hl] at h; cases h
      | ok bs =>
        rw [hl] at h
        cases h
        exact List.Forall₂.cons ha (ih hl)

theorem selectClass_sublist {n : ℕ} {c c' : List (Mat K d)} (h : selectClass n c = .ok c') : c'.Sublist c := by
  unfold selectClass at h
  split_ifs at h
  cases h
  have := ordSelect_sublist n (c.map fun a => ((1 : Mat K d), a))
  simpa [List.map_map, Function.comp_def] using this

/-- What the loop preserves: the `i`-th class consists of elements of the group, all in the same left coset of `H`,
different classes lie in different cosets and (as far as they are nonempty) they exhaust all cosets. -/
structure DivInv (G H : List (Mat K d)) (cs : List (List (Mat K d))) : Prop where
  memG : ∀ c ∈ cs, ∀ a ∈ c, a ∈ G
  same : ∀ c ∈ cs, ∀ a ∈ c, ∀ b ∈ c, a⁻¹ * b ∈ H
  diff : cs.Pairwise fun c c' => ∀ a ∈ c, ∀ b ∈ c', a⁻¹ * b ∉ H
  cover : ∀ g ∈ G, ∃ c ∈ cs, ∀ a ∈ c, a⁻¹ * g ∈ H

theorem DivInv.sub {G H : List (Mat K d)} {cs cs' : List (List (Mat K d))} (h : DivInv G H cs)
    (hs : List.Forall₂ (fun c c' => c'.Sublist c) cs cs') : DivInv G H cs' := by
  have h1 : ∀ c' ∈ cs', ∃ c ∈ cs, ∀ a ∈ c', a ∈ c := by
    intro c' hc'
    obtain ⟨n, hn, rfl⟩ := List.getElem_of_mem hc'
    obtain ⟨hl, hget⟩ := List.forall₂_iff_get.1 hs
    refine ⟨cs[n], List.getElem_mem _, fun a ha => (hget n (by omega) hn).subset ha⟩
  refine ⟨?_, ?_, ?_, ?_⟩
  · intro c' hc' a ha
    obtain ⟨c, hc, hsub⟩ := h1 c' hc'
    exact h.memG c hc a (hsub a ha)
  · intro c' hc' a ha b hb
    obtain ⟨c, hc, hsub⟩ := h1 c' hc'
    exact h.same c hc a (hsub a ha) b (hsub b hb)
  · have := h.diff
    clear h h1
    induction hs with
    | nil => exact List.Pairwise.nil
    | @cons c c' l l' hcc' hll' ih =>
      rw [List.pairwise_cons] at this ⊢
      refine ⟨?_, ih this.2⟩
      intro x hx a ha b hb
      obtain ⟨n, hn, rfl⟩ := List.getElem_of_mem hx
      obtain ⟨hl, hget⟩ := List.forall₂_iff_get.1 hll'
      exact this.1 l[n] (List.getElem_mem _) a (hcc'.subset ha) b ((hget n (by omega) hn).subset hb)
  · intro g hg
    obtain ⟨c, hc, hcov⟩ := h.cover g hg
    obtain ⟨n, hn, rfl⟩ := List.getElem_of_mem hc
    obtain ⟨hl, hget⟩ := List.forall₂_iff_get.1 hs
    exact ⟨cs'[n], List.getElem_mem _, fun a ha => hcov a ((hget n hn (by omega)).subset ha)⟩

theorem DivInv.translate {G H : List (Mat K d)} (hG : IsMatGroup G) {cs : List (List (Mat K d))} (h : DivInv G H cs)
    {b : Mat K d} (hb : b ∈ G) :
    DivInv G H (cs.map fun c => (c.map fun s => b⁻¹ * s).foldl addNew []) := by
  obtain ⟨hbi, hbb, hbb'⟩ := hG.inv hb
  have hmem : ∀ (c : List (Mat K d)) x, x ∈ (c.map fun s => b⁻¹ * s).foldl addNew [] ↔ ∃ s ∈ c, b⁻¹ * s = x := by
    intro c x
    rw [mem_foldl_addNew]
    simp
  have hii : (b⁻¹)⁻¹ = b := Matrix.inv_eq_right_inv hbb'
  have hcancel : ∀ s t : Mat K d, (b⁻¹ * s)⁻¹ * (b⁻¹ * t) = s⁻¹ * t := by
    intro s t
    rw [Matrix.mul_inv_rev, hii]
    calc s⁻¹ * b * (b⁻¹ * t) = s⁻¹ * (b * b⁻¹) * t := by simp only [Matrix.mul_assoc]
      _ = s⁻¹ * t := by rw [hbb, Matrix.mul_one]
  refine ⟨?_, ?_, ?_, ?_⟩
  · intro c hc a ha
    obtain ⟨c0, hc0, rfl⟩ := List.mem_map.1 hc
    obtain ⟨s, hs, rfl⟩ := (hmem c0 a).1 ha
    exact hG.mul_mem _ hbi _ (h.memG c0 hc0 s hs)
  · intro c hc a ha a' ha'
    obtain ⟨c0, hc0, rfl⟩ := List.mem_map.1 hc
    obtain ⟨s, hs, rfl⟩ := (hmem c0 a).1 ha
    obtain ⟨t, ht, rfl⟩ := (hmem c0 a').1 ha'
    rw [hcancel]; exact h.same c0 hc0 s hs t ht
  · rw [List.pairwise_map]
    refine h.diff.imp ?_
    intro c c' hcc' a ha a' ha'
    obtain ⟨s, hs, rfl⟩ := (hmem c a).1 ha
    obtain ⟨t, ht, rfl⟩ := (hmem c' a').1 ha'
    rw [hcancel]; exact hcc' s hs t ht
  · intro g hg
    obtain ⟨c, hc, hcov⟩ := h.cover (b * g) (hG.mul_mem _ hb _ hg)
    refine ⟨_, List.mem_map.2 ⟨c, hc, rfl⟩, ?_⟩
    intro a ha
    obtain ⟨s, hs, rfl⟩ := (hmem c a).1 ha
    have := hcov s hs
    rw [Matrix.mul_inv_rev, hii, Matrix.mul_assoc]
    exact this

theorem divLoop_inv {G H : List (Mat K d)} (hG : IsMatGroup G) {N n : ℕ} {cs cs' : List (List (Mat K d))}
    (h : DivInv G H cs) (hr : divLoop N n cs = some (.ok cs')) : DivInv G H cs' := by
  induction n generalizing cs with
  | zero => simp [divLoop] at hr
  | succ n ih =>
    simp only [divLoop, minv_eq] at hr
    cases hm : cs.mapM (selectClass N) with
    | error e => rw [hm] at hr; simp at hr
    | ok cs1 =>
      rw [hm] at hr
      simp only at hr
      have h1 : DivInv G H cs1 := h.sub ((mapM_ok hm).imp fun c c' h => selectClass_sublist h)
      cases hf : cs1.find? (fun c => decide (1 < c.length)) with
      | none => rw [hf] at hr; simp at hr; exact hr ▸ h1
      | some c =>
        rw [hf] at hr
        cases c with
        | nil => simp at hr; exact hr ▸ h1
        | cons b t =>
          simp only at hr
          have hb : b ∈ G := h1.memG _ (List.mem_of_find?_eq_some hf) b (by simp)
          exact ih (h1.translate hG hb) hr

/-- the left coset relation is an equivalence -/
theorem leftRel_equiv {G H : List (Mat K d)} (hG : IsMatGroup G) (hH : IsMatGroup H) :
    (∀ a ∈ G, leftRel H a a = true) ∧ (∀ a ∈ G, ∀ b ∈ G, leftRel H a b = true → leftRel H b a = true) ∧
    (∀ a ∈ G, ∀ b ∈ G, ∀ c ∈ G, leftRel H a b = true → leftRel H b c = true → leftRel H a c = true) := by
  have hl : ∀ a b : Mat K d, leftRel H a b = true ↔ a⁻¹ * b ∈ H := by
    intro a b; unfold leftRel; simp [minv_eq]
  simp only [hl]
  refine ⟨?_, ?_, ?_⟩
  · intro a ha
    rw [(hG.inv ha).2.2]; exact hH.one_mem
  · intro a ha b hb h
    have := (hH.inv h).1
    rw [Matrix.mul_inv_rev, Matrix.inv_eq_right_inv (hG.inv ha).2.2] at this
    exact this
  · intro a ha b hb c hc h1 h2
    have := hH.mul_mem _ h1 _ h2
    have e : a⁻¹ * b * (b⁻¹ * c) = a⁻¹ * c := by
      calc a⁻¹ * b * (b⁻¹ * c) = a⁻¹ * (b * b⁻¹) * c := by simp only [Matrix.mul_assoc]
        _ = a⁻¹ * c := by rw [(hG.inv hb).2.1, Matrix.mul_one]
    rwa [e] at this

theorem mapM_firstOf {cs : List (List (Mat K d))} {xs : List (Mat K d)} (h : cs.mapM firstOf = .ok xs) :
    List.Forall₂ (fun c x => x ∈ c) cs xs := by
  refine (mapM_ok h).imp ?_
  intro c x hx
  cases c with
  | nil => simp [firstOf] at hx
  | cons a t => simp [firstOf] at hx; simp [hx]

/-! ### termination -/

theorem foldl_addNew_length_le {α : Type} [DecidableEq α] (l acc : List α) :
    (l.foldl addNew acc).length ≤ acc.length + l.length := by
  induction l generalizing acc with
  | nil => simp
  | cons a l ih =>
    rw [List.foldl_cons]
    refine (ih _).trans ?_
    unfold addNew
    split_ifs
    · simp
    · simp; omega

/-- total number of candidates -/
def candCount (cs : List (List (Mat K d))) : ℕ := (cs.map List.length).sum

theorem candCount_sub {cs cs' : List (List (Mat K d))}
    (hs : List.Forall₂ (fun c c' => c'.length ≤ c.length) cs cs') : candCount cs' ≤ candCount cs := by
  unfold candCount
  induction hs with
  | nil => simp
  | cons h _ ih => simp only [List.map_cons, List.sum_cons]; omega

theorem candCount_lt {cs cs' : List (List (Mat K d))}
    (hs : List.Forall₂ (fun c c' => c'.length ≤ c.length) cs cs')
    (hlt : ∃ n, ∃ (h1 : n < cs.length) (h2 : n < cs'.length), cs'[n].length < cs[n].length) :
    candCount cs' < candCount cs := by
  unfold candCount
  induction hs with
  | nil => obtain ⟨n, h1, -⟩ := hlt; simp at h1
  | @cons c c' l l' h hl ih =>
    simp only [List.map_cons, List.sum_cons]
    obtain ⟨n, h1, h2, h3⟩ := hlt
    have hle : (l'.map List.length).sum ≤ (l.map List.length).sum := candCount_sub hl
    cases n with
    | zero => simp at h3; omega
    | succ n =>
      have := ih ⟨n, by simpa using h1, by simpa using h2, by simpa using h3⟩
      omega

/-- a class that contains the identity without repetition is reduced to it -/
theorem selectClass_one {n : ℕ} {c c' : List (Mat K d)} (hn : 0 < n) (h1 : (1 : Mat K d) ∈ c) (hnd : c.Nodup)
    (h : selectClass n c = .ok c') : c'.length ≤ 1 := by
  unfold selectClass at h
  split_ifs at h
  cases h
  cases n with
  | zero => omega
  | succ n =>
    simp only [ordSelect, List.map_map, Function.comp_def, Matrix.one_mul]
    have hmem : ∀ l : List (Mat K d), (((l.map fun a => (a, a)).filter fun p : Mat K d × Mat K d =>
        decide (p.1 = 1)).map Prod.snd) = l.filter fun a => decide (a = 1) := by
      intro l
      induction l with
      | nil => rfl
      | cons a l ih =>
        simp only [List.map_cons, List.filter_cons]
        by_cases ha : a = 1
        · simp [ha, ih]
        · simp [ha, ih]
    rw [hmem]
    have hne : (c.filter fun a => decide (a = 1)).isEmpty = false := by
      rw [List.isEmpty_eq_false_iff]
      exact List.ne_nil_of_mem (List.mem_filter.2 ⟨h1, by simp⟩)
    rw [hne]
    simp only [Bool.false_eq_true, if_false]
    have hc : (c.filter fun a => decide (a = 1)).length = c.count 1 := by
      rw [List.count, List.countP_eq_length_filter]
      congr 1
    rw [hc, List.count_eq_one_of_mem hnd h1]

theorem divLoop_terminates {G H : List (Mat K d)} (hG : IsMatGroup G) {N n : ℕ} (hN : 0 < N)
    {cs : List (List (Mat K d))} (h : DivInv G H cs) (hnd : ∀ c ∈ cs, c.Nodup)
    (hn : candCount cs < n ∨ (∃ c ∈ cs, 1 ∈ c ∧ 1 < c.length) ∧ candCount cs ≤ n) :
    ∃ r, divLoop N n cs = some r := by
  induction n generalizing cs with
  | zero =>
    rcases hn with hn | ⟨⟨c, hc, h1, h2⟩, hn⟩
    · omega
    · exfalso
      have : c.length ≤ candCount cs := List.single_le_sum (by simp) _ (List.mem_map.2 ⟨c, hc, rfl⟩)
      omega
  | succ n ih =>
    simp only [divLoop, minv_eq]
    cases hm : cs.mapM (selectClass N) with
    | error e => exact ⟨_, rfl⟩
    | ok cs1 =>
      simp only
      have hf2 := mapM_ok hm
      have hsub : List.Forall₂ (fun c c' => c'.Sublist c) cs cs1 := hf2.imp fun c c' h => selectClass_sublist h
      have h1 : DivInv G H cs1 := h.sub hsub
      have hnd1 : ∀ c ∈ cs1, c.Nodup := by
        intro c hc
        obtain ⟨i, hi, rfl⟩ := List.getElem_of_mem hc
        obtain ⟨hl, hget⟩ := List.forall₂_iff_get.1 hsub
        exact (hnd cs[i] (List.getElem_mem _)).sublist (hget i (by omega) hi)
      have hlen : List.Forall₂ (fun c c' : List (Mat K d) => c'.length ≤ c.length) cs cs1 :=
        hsub.imp fun c c' h => h.length_le
      -- after a round that reduces, we are below the bound
      have hcount : candCount cs1 ≤ n := by
        rcases hn with hn | ⟨⟨c, hc, hone, hlong⟩, hn⟩
        · have := candCount_sub hlen; omega
        · have : candCount cs1 < candCount cs := by
            refine candCount_lt hlen ?_
            obtain ⟨i, hi, rfl⟩ := List.getElem_of_mem hc
            obtain ⟨hl, hget⟩ := List.forall₂_iff_get.1 hf2
            refine ⟨i, hi, by omega, ?_⟩
            have := selectClass_one hN hone (hnd _ hc) (hget i hi (by omega))
            simp only [List.get_eq_getElem] at this
            omega
          omega
      cases hf : cs1.find? (fun c => decide (1 < c.length)) with
      | none => exact ⟨_, rfl⟩
      | some c =>
        cases c with
        | nil => exact ⟨_, rfl⟩
        | cons b t =>
          simp only
          have hmemc := List.mem_of_find?_eq_some hf
          have hb : b ∈ G := h1.memG _ hmemc b (by simp)
          have hlong : 1 < (b :: t).length := by simpa using List.find?_some hf
          obtain ⟨hbi, hbb, hbb'⟩ := hG.inv hb
          refine ih (h1.translate hG hb) ?_ ?_
          · intro c' hc'
            obtain ⟨c0, -, rfl⟩ := List.mem_map.1 hc'
            exact nodup_foldl_addNew (by simp)
          · right
            have hinj : ∀ c0 ∈ cs1, ((c0.map fun s => b⁻¹ * s).foldl addNew []).length = c0.length := by
              intro c0 hc0
              have hnd0 : (c0.map fun s => b⁻¹ * s).Nodup := by
                refine (hnd1 c0 hc0).map ?_
                intro x y hxy
                have := congrArg (fun m => b * m) hxy
                simpa [← Matrix.mul_assoc, hbb] using this
              have hle := foldl_addNew_length_le (c0.map fun s => b⁻¹ * s) []
              have hge : (c0.map fun s => b⁻¹ * s).length ≤ ((c0.map fun s => b⁻¹ * s).foldl addNew []).length :=
                (List.subperm_of_subset hnd0 fun x hx => mem_foldl_addNew.2 (Or.inr hx)).length_le
              simp at hle hge ⊢
              omega
            refine ⟨⟨_, List.mem_map.2 ⟨_, hmemc, rfl⟩, ?_, ?_⟩, ?_⟩
            · rw [mem_foldl_addNew]
              right
              simp [hbb']
            · rw [hinj _ hmemc]; exact hlong
            · have : candCount (cs1.map fun c => (c.map fun s => b⁻¹ * s).foldl addNew []) = candCount cs1 := by
                unfold candCount
                rw [List.map_map]
                congr 1
                exact List.map_congr_left fun c0 hc0 => hinj c0 hc0
              omega

end TB
