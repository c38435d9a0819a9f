import Mathlib.Tactic.Linarith
import Mathlib.Data.List.Perm.Basic
import Verif.Model.TbmInitRef
import Verif.Props.Subspaces

/-!
# Lemmas on the placing of the energies at `k = 0` in `TightBindingModel.init_from_ref`
-/

namespace TB.TbmInit
open Matrix TB

variable {d e n : ℕ}

/-- State `j` belongs to the group `g`. -/
def On (g : List Bool) (j : Fin n) : Prop := g.getD j.val false = true

/-- No state in two groups. -/
def Apart (n : ℕ) (G : List (List Bool)) : Prop := ∀ g ∈ G, ∀ g' ∈ G, ∀ j : Fin n, On g j → On g' j → g = g'

/-- What holds after some pairs of value and group are placed. -/
structure Inv (base : ℝ) (G : List (List Bool)) (done : List (ℝ × List Bool)) (rem : List (List Bool)) (bands : Fin n → ℝ) : Prop where
  carried : ∀ p ∈ done, p.2 ∈ G ∧ p.2 ∉ rem ∧ ∀ j, bands j = p.1 ↔ On p.2 j
  value : ∀ j, bands j = base ∨ bands j ∈ done.map Prod.fst
  free : ∀ g ∈ rem, ∀ j, On g j → bands j = base
  sub : ∀ g ∈ rem, g ∈ G
  nodup : rem.Nodup

theorem Inv.start {base : ℝ} {G rem : List (List Bool)} (h : ∀ g ∈ rem, g ∈ G) (hn : rem.Nodup) :
    Inv base G [] rem (fun _ : Fin n => base) :=
  ⟨fun p hp => absurd hp List.not_mem_nil, fun _ => .inl rfl, fun _ _ _ _ => rfl, h, hn⟩

theorem Inv.step {base s : ℝ} {G : List (List Bool)} {done : List (ℝ × List Bool)} {g : List Bool} {rem : List (List Bool)} {bands : Fin n → ℝ}
    (hG : Apart n G) (h : Inv base G done (g :: rem) bands) (hs : s ∉ done.map Prod.fst) (hb : s ≠ base) :
    Inv base G (done ++ [(s, g)]) rem (setMask bands g s) := by
  have hg : g ∈ G := h.sub g List.mem_cons_self
  have hgr : g ∉ rem := (List.nodup_cons.1 h.nodup).1
  have hon : ∀ j, On g j → setMask bands g s j = s := fun j hj => if_pos hj
  have hoff : ∀ j, ¬ On g j → setMask bands g s j = bands j := fun j hj => if_neg hj
  refine ⟨fun p hp => ?_, fun j => ?_, fun g' hg' j hj => ?_, fun g' hg' => h.sub g' (List.mem_cons_of_mem _ hg'), (List.nodup_cons.1 h.nodup).2⟩
  · rcases List.mem_append.1 hp with hp | hp
    · obtain ⟨h1, h2, h3⟩ := h.carried p hp
      refine ⟨h1, fun h4 => h2 (List.mem_cons_of_mem _ h4), fun j => ?_⟩
      by_cases hj : On g j
      · rw [hon j hj]
        refine ⟨fun e => absurd (List.mem_map.2 ⟨p, hp, e.symm⟩) hs, fun h4 => ?_⟩
        exact absurd (hG _ h1 _ hg j h4 hj ▸ List.mem_cons_self) h2
      · rw [hoff j hj, h3]
    · rw [List.mem_singleton] at hp
      subst hp
      refine ⟨hg, hgr, fun j => ⟨fun e => ?_, hon j⟩⟩
      by_contra hj
      simp only [hoff j hj] at e
      rcases h.value j with h1 | h1
      · exact hb (e.symm.trans h1)
      · exact hs (e ▸ h1)
  · by_cases hj : On g j
    · right; rw [hon j hj]; simp
    · rw [hoff j hj]
      rcases h.value j with h1 | h1
      · exact .inl h1
      · right; rw [List.map_append]; exact List.mem_append_left _ h1
  · have hj' : ¬ On g j := fun h1 => hgr (hG _ hg _ (h.sub g' (List.mem_cons_of_mem _ hg')) j h1 hj ▸ hg')
    rw [hoff j hj']
    exact h.free g' (List.mem_cons_of_mem _ hg') j hj

/-! ## the branch `not use_repr_order` -/

/-- The list number `m + k` holds groups of size `m + k + 1`. -/
def SizedFrom : ℕ → List (List (List Bool)) → Prop
  | _, [] => True
  | m, l :: ls => (∀ g ∈ l, g.count true = m + 1) ∧ SizedFrom (m + 1) ls

theorem sizedFrom_le : ∀ {m : ℕ} {gs : List (List (List Bool))}, SizedFrom m gs → ∀ g ∈ gs.flatten, m + 1 ≤ g.count true
  | _, [], _, g, hg => by simp at hg
  | m, l :: ls, h, g, hg => by
    rw [List.flatten_cons, List.mem_append] at hg
    rcases hg with hg | hg
    · rw [h.1 g hg]
    · have := sizedFrom_le h.2 g hg; omega

theorem seek_ok {di : ℕ} {left : ℤ} : ∀ {m : ℕ} {gs : List (List (List Bool))} {g : List Bool} {gs' : List (List (List Bool))} {left' : ℤ},
    SizedFrom m gs → seek di left m gs = .ok (g, gs', left') →
    gs.flatten = g :: gs'.flatten ∧ SizedFrom m gs' ∧ left' = left - max 0 ((g.count true : ℤ) - (di + 1)) ∧
      (g.count true : ℤ) - (di + 1) ≤ left ∧ ∀ g' ∈ gs.flatten, g.count true ≤ g'.count true
  | _, [], _, _, _, _, h => by cases h
  | m, msym :: rest, g, gs', left', hs, h => by
    rw [seek.eq_def] at h
    simp only at h
    split_ifs at h with hl
    cases msym with
    | nil =>
      simp only at h
      cases hr : seek di left (m + 1) rest with
      | error e => rw [hr] at h; cases h
      | ok r =>
        rw [hr] at h
        obtain ⟨g1, gs1, l1⟩ := r
        cases h
        obtain ⟨h1, h2, h3, h4, h5⟩ := seek_ok hs.2 hr
        exact ⟨by simpa using h1, ⟨by simp, h2⟩, h3, h4, by simpa using h5⟩
    | cons g1 gs1 =>
      cases h
      have hc := hs.1 g List.mem_cons_self
      have e : (g.count true : ℤ) - (di + 1) = (m : ℤ) - di := by rw [hc]; push_cast; ring
      refine ⟨rfl, ⟨fun g' hg' => hs.1 g' (List.mem_cons_of_mem _ hg'), hs.2⟩, by rw [e], by rw [e]; omega, fun g' hg' => ?_⟩
      rw [hc]
      have hs' : SizedFrom m ((g :: gs1) :: rest) := hs
      exact sizedFrom_le hs' g' hg'

theorem seek_iff {di : ℕ} {left : ℤ} : ∀ {m : ℕ} {gs : List (List (List Bool))}, SizedFrom m gs →
    (gs.flatten = [] → seek di left m gs = .error .valueError) ∧
    ∀ g rest, gs.flatten = g :: rest → ((g.count true : ℤ) - (di + 1) ≤ left → ∃ r, seek di left m gs = .ok r) ∧
      (left < (g.count true : ℤ) - (di + 1) → seek di left m gs = .error .valueError)
  | _, [], _ => ⟨fun _ => rfl, fun g rest h => by simp at h⟩
  | m, msym :: gs, hs => by
    rw [seek.eq_def]
    simp only
    cases msym with
    | nil =>
      obtain ⟨h1, h2⟩ := seek_iff (di := di) (left := left) hs.2
      simp only [List.flatten_cons, List.nil_append]
      refine ⟨fun h => ?_, fun g rest h => ⟨fun hl => ?_, fun hl => ?_⟩⟩
      · rw [h1 h]
        split_ifs <;> rfl
      · obtain ⟨r, hr⟩ := (h2 g rest h).1 hl
        have := sizedFrom_le hs.2 g (by rw [h]; exact List.mem_cons_self)
        rw [hr, if_neg (by omega)]
        exact ⟨_, rfl⟩
      · rw [(h2 g rest h).2 hl]
        split_ifs <;> rfl
    | cons g0 gs0 =>
      refine ⟨fun h => by simp at h, fun g rest h => ?_⟩
      simp only [List.flatten_cons, List.cons_append] at h
      obtain ⟨rfl, -⟩ := List.cons.inj h
      have hc := hs.1 g0 List.mem_cons_self
      refine ⟨fun hl => ?_, fun hl => ?_⟩
      · rw [if_neg (by omega)]; exact ⟨_, rfl⟩
      · rw [if_pos (by omega)]

/-- The classes of the sizes in the second list, taken in order, have room for energies of the degeneracies in the first list, with `left`
additional states. -/
def Room : ℤ → List ℕ → List ℕ → Prop
  | _, [], _ => True
  | _, _ :: _, [] => False
  | left, c :: cs, s :: ss => (s : ℤ) - c ≤ left ∧ Room (left - max 0 ((s : ℤ) - c)) cs ss

theorem free_iff : ∀ (l : List (ℕ × ℝ)) (st : St n), SizedFrom 0 st.groups →
    (Room st.left (l.map fun p => p.1 + 1) (st.groups.flatten.map fun g => g.count true) → ∃ st', l.foldlM place st = .ok st') ∧
    (¬ Room st.left (l.map fun p => p.1 + 1) (st.groups.flatten.map fun g => g.count true) → l.foldlM place st = .error .valueError)
  | [], st, _ => ⟨fun _ => ⟨_, rfl⟩, fun h => absurd trivial h⟩
  | p :: l, st, hs => by
    rw [List.foldlM_cons]
    have hk := seek_iff (di := p.1) (left := st.left) hs
    cases hf : st.groups.flatten with
    | nil =>
      refine ⟨fun h => absurd h id, fun _ => ?_⟩
      have : place st p = .error .valueError := by unfold place; rw [hk.1 hf]
      rw [this]; rfl
    | cons g rest =>
      rw [List.map_cons, List.map_cons]
      unfold Room
      push_cast
      by_cases hl : (g.count true : ℤ) - (p.1 + 1) ≤ st.left
      · obtain ⟨⟨g', gs', left'⟩, hr⟩ := (hk.2 g rest hf).1 hl
        obtain ⟨h1, h2, h3, -, -⟩ := seek_ok hs hr
        rw [hf] at h1
        obtain ⟨rfl, rfl⟩ := List.cons.inj h1
        have hp : place st p = .ok ⟨setMask st.bands g p.2, gs', left'⟩ := by unfold place; rw [hr]
        rw [hp]
        have ih := free_iff l ⟨setMask st.bands g p.2, gs', left'⟩ h2
        simp only [h3] at ih
        refine ⟨fun h => ?_, fun h => ?_⟩
        · have := ih.1 h.2
          rw [← h3] at this
          exact this
        · have := ih.2 fun h' => h ⟨hl, h'⟩
          rw [← h3] at this
          exact this
      · have : place st p = .error .valueError := by unfold place; rw [(hk.2 g rest hf).2 (not_le.1 hl)]
        rw [this]
        exact ⟨fun h => absurd h.1 hl, fun _ => rfl⟩

theorem sizedFrom_sorted : ∀ {m : ℕ} {gs : List (List (List Bool))}, SizedFrom m gs → (gs.flatten.map fun g => g.count true).Pairwise (· ≤ ·)
  | _, [], _ => by simp
  | m, l :: ls, h => by
    rw [List.flatten_cons, List.map_append, List.pairwise_append]
    refine ⟨?_, sizedFrom_sorted h.2, fun a ha b hb => ?_⟩
    · rw [List.pairwise_map]
      refine List.pairwise_iff_forall_sublist.2 fun {a b} hab => ?_
      rw [h.1 a (hab.subset (by simp)), h.1 b (hab.subset (by simp))]
    · obtain ⟨g, hg, rfl⟩ := List.mem_map.1 ha
      obtain ⟨g', hg', rfl⟩ := List.mem_map.1 hb
      have := sizedFrom_le h.2 g' hg'
      simp only [h.1 g hg]
      omega

/-- Extra states of the groups in use. -/
noncomputable def extra (row : List ℝ) (new : List (ℝ × List Bool)) : ℤ :=
  open Classical in (new.map fun p => max 0 ((p.2.count true : ℤ) - row.count p.1)).sum

open Classical in
theorem free_fold {base : ℝ} {G : List (List Bool)} (hG : Apart n G) (row : List ℝ) : ∀ (l : List (ℕ × ℝ)) (done : List (ℝ × List Bool)) (st st' : St n),
    (∀ p ∈ l, row.count p.2 = p.1 + 1) → (l.map Prod.snd).Nodup → (∀ p ∈ l, p.2 ∉ done.map Prod.fst ∧ p.2 ≠ base) →
    SizedFrom 0 st.groups → Inv base G done st.groups.flatten st.bands → l.foldlM place st = .ok st' →
    ∃ new : List (ℝ × List Bool), new.map Prod.fst = l.map Prod.snd ∧ Inv base G (done ++ new) st'.groups.flatten st'.bands ∧
      (∀ p ∈ new, p.2 ∈ st.groups.flatten) ∧ new.Pairwise (fun p q => p.2.count true ≤ q.2.count true) ∧
      st'.left = st.left - extra row new ∧ (0 ≤ st.left → 0 ≤ st'.left)
  | [], done, st, st', _, _, _, _, hi, h => by
    cases h
    exact ⟨[], rfl, by simpa using hi, by simp, by simp, by simp [extra], id⟩
  | p :: l, done, st, st', hrow, hnd, hnew, hs, hi, h => by
    rw [List.foldlM_cons] at h
    cases hp : place st p with
    | error e => rw [hp] at h; cases h
    | ok st1 =>
      rw [hp] at h
      change l.foldlM place st1 = .ok st' at h
      unfold place at hp
      cases hk : seek p.1 st.left 0 st.groups with
      | error e => rw [hk] at hp; cases hp
      | ok r =>
        obtain ⟨g, gs, left⟩ := r
        rw [hk] at hp
        cases hp
        obtain ⟨h1, h2, h3, h4, h5⟩ := seek_ok hs hk
        rw [List.map_cons, List.nodup_cons] at hnd
        have hstep : Inv base G (done ++ [(p.2, g)]) gs.flatten (setMask st.bands g p.2) := by
          rw [h1] at hi
          exact hi.step hG (hnew p List.mem_cons_self).1 (hnew p List.mem_cons_self).2
        obtain ⟨new, e1, e2, e3, e4, e5, e6⟩ := free_fold hG row l (done ++ [(p.2, g)]) ⟨setMask st.bands g p.2, gs, left⟩ st'
          (fun q hq => hrow q (List.mem_cons_of_mem _ hq)) hnd.2 (fun q hq => ⟨by
            rw [List.map_append, List.mem_append]
            rintro (h | h)
            · exact (hnew q (List.mem_cons_of_mem _ hq)).1 h
            · simp only [List.map_cons, List.map_nil, List.mem_singleton] at h
              exact hnd.1 (h ▸ List.mem_map_of_mem hq), (hnew q (List.mem_cons_of_mem _ hq)).2⟩) h2 hstep h
        have hc : (row.count p.2 : ℤ) = p.1 + 1 := by exact_mod_cast hrow p List.mem_cons_self
        refine ⟨(p.2, g) :: new, by simp [e1], by simpa using e2, ?_, ?_, ?_, ?_⟩
        · intro q hq
          rw [h1]
          rcases List.mem_cons.1 hq with rfl | hq
          · exact List.mem_cons_self
          · exact List.mem_cons_of_mem _ (e3 q hq)
        · refine List.pairwise_cons.2 ⟨fun q hq => h5 _ ?_, e4⟩
          rw [h1]
          exact List.mem_cons_of_mem _ (e3 q hq)
        · rw [e5]
          simp only [extra, List.map_cons, List.sum_cons]
          rw [hc, h3]; ring
        · intro h0
          refine e6 ?_
          simp only
          rw [h3]
          rcases max_cases 0 ((g.count true : ℤ) - (p.1 + 1)) with ⟨h, -⟩ | ⟨h, -⟩ <;> rw [h] <;> omega

theorem zip_counts (groups : List (List Bool)) : groups.zip (groups.map fun g => g.count true) = groups.map fun g => (g, g.count true) := by
  induction groups with
  | nil => rfl
  | cons a l ih => simp [ih]

theorem sized_sized (shuffle : ℕ → List (List Bool) → List (List Bool)) (hsh : ∀ i l, (shuffle i l).Perm l) (groups : List (List Bool)) :
    ∀ (k m : ℕ), SizedFrom m ((List.range' m k).map fun i =>
      shuffle i (((groups.zip (groups.map fun g => g.count true)).filter fun p => p.2 == i + 1).map Prod.fst))
  | 0, m => by simp [SizedFrom]
  | k + 1, m => by
    rw [List.range'_succ, List.map_cons]
    refine ⟨fun g hg => ?_, sized_sized shuffle hsh groups k (m + 1)⟩
    rw [(hsh _ _).mem_iff, List.mem_map] at hg
    obtain ⟨⟨a, b⟩, hp, rfl⟩ := hg
    rw [List.mem_filter] at hp
    have h1 : (a, b) ∈ groups.map fun g => (g, g.count true) := by
      rw [← zip_counts]; exact hp.1
    obtain ⟨x, -, hx⟩ := List.mem_map.1 h1
    have h2 : b = m + 1 := by simpa using hp.2
    cases hx
    exact h2

theorem sized_mem (shuffle : ℕ → List (List Bool) → List (List Bool)) (hsh : ∀ i l, (shuffle i l).Perm l) (dim : ℕ) (groups : List (List Bool))
    (counts : List ℕ) : ∀ g ∈ (sized shuffle dim groups counts).flatten, g ∈ groups := by
  intro g hg
  rw [sized, List.mem_flatten] at hg
  obtain ⟨l, hl, hg⟩ := hg
  obtain ⟨i, -, rfl⟩ := List.mem_map.1 hl
  rw [(hsh _ _).mem_iff, List.mem_map] at hg
  obtain ⟨p, hp, rfl⟩ := hg
  exact (List.of_mem_zip (a := p.1) (b := p.2) (List.mem_filter.1 hp).1).1

theorem sized_nodup (shuffle : ℕ → List (List Bool) → List (List Bool)) (hsh : ∀ i l, (shuffle i l).Perm l) (groups : List (List Bool))
    (hn : groups.Nodup) : ∀ (k m : ℕ), ((List.range' m k).map fun i =>
      shuffle i (((groups.zip (groups.map fun g => g.count true)).filter fun p => p.2 == i + 1).map Prod.fst)).flatten.Nodup
  | 0, m => by simp
  | k + 1, m => by
    rw [List.range'_succ, List.map_cons, List.flatten_cons, List.nodup_append]
    have hz := zip_counts groups
    refine ⟨?_, sized_nodup shuffle hsh groups hn k (m + 1), ?_⟩
    · rw [(hsh _ _).nodup_iff, hz, List.filter_map, List.map_map]
      have : (Prod.fst ∘ fun g : List Bool => (g, g.count true)) = id := rfl
      rw [this, List.map_id]
      exact hn.filter _
    · rintro a ha b hb rfl
      have h1 := (sized_sized shuffle hsh groups 1 m)
      simp only [List.range'_one, List.map_cons, List.map_nil, SizedFrom] at h1
      have h2 := sizedFrom_le (sized_sized shuffle hsh groups k (m + 1)) a hb
      rw [h1.1 a ha] at h2
      omega

/-! ## the branch `use_repr_order` -/

open Classical in
theorem ordered_fold {base : ℝ} {G : List (List Bool)} (hG : Apart n G) (row : List ℝ) (last : ℤ) :
    ∀ (l : List (ℝ × List Bool)) (i : ℕ) (done : List (ℝ × List Bool)) (tail : List (List Bool)) (st st' : (Fin n → ℝ) × ℤ),
    (l.map Prod.fst).Nodup → (∀ p ∈ l, p.1 ∉ done.map Prod.fst ∧ p.1 ≠ base) →
    Inv base G done (l.map Prod.snd ++ tail) st.1 → (l.zipIdx i).foldlM (placeOrdered row last) st = .ok st' →
    Inv base G (done ++ l) tail st'.1 ∧ st'.2 = st.2 - extra row l ∧ (0 ≤ st.2 → 0 ≤ st'.2) ∧
      ∀ p ∈ l.zipIdx i, p.2 ≠ 0 → (p.2 : ℤ) ≠ last → row.count p.1.1 = p.1.2.count true
  | [], i, done, tail, st, st', _, _, hi, h => by
    cases h
    exact ⟨by simpa using hi, by simp [extra], id, by simp⟩
  | p :: l, i, done, tail, st, st', hnd, hnew, hi, h => by
    rw [List.zipIdx_cons, List.foldlM_cons] at h
    cases hp : placeOrdered row last st (p, i) with
    | error e => rw [hp] at h; cases h
    | ok st1 =>
      rw [hp] at h
      change (l.zipIdx (i + 1)).foldlM (placeOrdered row last) st1 = .ok st' at h
      have key : st1 = (setMask st.1 p.2 p.1, st.2 - max 0 ((p.2.count true : ℤ) - row.count p.1)) ∧
          (0 ≤ st.2 → 0 ≤ st1.2) ∧ (i ≠ 0 → (i : ℤ) ≠ last → row.count p.1 = p.2.count true) := by
        unfold placeOrdered at hp
        simp only at hp
        split_ifs at hp with h1 h2 h2
        · cases hp
          refine ⟨rfl, fun h0 => ?_, fun h3 h4 => absurd h1 (not_or.2 ⟨h3, h4⟩)⟩
          simp only
          rcases max_cases 0 ((p.2.count true : ℤ) - row.count p.1) with ⟨h, -⟩ | ⟨h, -⟩ <;> rw [h] <;> omega
        · cases hp
          rw [not_not] at h2
          refine ⟨?_, id, fun _ _ => h2⟩
          rw [h2]; simp
      obtain ⟨k1, k2, k3⟩ := key
      subst k1
      rw [List.map_cons, List.nodup_cons] at hnd
      have hstep : Inv base G (done ++ [p]) (l.map Prod.snd ++ tail) (setMask st.1 p.2 p.1) := by
        rw [List.map_cons, List.cons_append] at hi
        exact hi.step hG (hnew p List.mem_cons_self).1 (hnew p List.mem_cons_self).2
      obtain ⟨e1, e2, e3, e4⟩ := ordered_fold hG row last l (i + 1) (done ++ [p]) tail _ st' hnd.2 (fun q hq => ⟨by
          rw [List.map_append, List.mem_append]
          rintro (h | h)
          · exact (hnew q (List.mem_cons_of_mem _ hq)).1 h
          · simp only [List.map_cons, List.map_nil, List.mem_singleton] at h
            exact hnd.1 (h ▸ List.mem_map_of_mem hq), (hnew q (List.mem_cons_of_mem _ hq)).2⟩) hstep h
      refine ⟨by simpa using e1, ?_, fun h0 => e3 (k2 h0), fun q hq => ?_⟩
      · rw [e2]
        simp only [extra, List.map_cons, List.sum_cons]
        ring
      · rw [List.zipIdx_cons] at hq
        rcases List.mem_cons.1 hq with rfl | hq
        · exact k3
        · exact e4 q hq

open Classical in
theorem middle_fold (row : List ℝ) (last : ℤ) (left : ℤ) : ∀ (l : List (ℝ × List Bool)) (i : ℕ) (b : Fin n → ℝ), 0 < i → (i : ℤ) + l.length ≤ last →
    ((∀ p ∈ l, p.2.count true = row.count p.1) → ∃ b', (l.zipIdx i).foldlM (placeOrdered row last) (b, left) = .ok (b', left)) ∧
    ((∃ p ∈ l, p.2.count true ≠ row.count p.1) → (l.zipIdx i).foldlM (placeOrdered row last) (b, left) = .error .valueError)
  | [], i, b, _, _ => ⟨fun _ => ⟨b, rfl⟩, fun ⟨p, hp, _⟩ => absurd hp List.not_mem_nil⟩
  | p :: l, i, b, h0, hl => by
    rw [List.length_cons] at hl
    push_cast at hl
    rw [List.zipIdx_cons, List.foldlM_cons]
    have ih := middle_fold row last left l (i + 1) (setMask b p.2 p.1) (by omega) (by push_cast; omega)
    have hc : ¬ (i = 0 ∨ (i : ℤ) = last) := by omega
    by_cases hp : p.2.count true = row.count p.1
    · have : placeOrdered row last (b, left) (p, i) = .ok (setMask b p.2 p.1, left) := by
        unfold placeOrdered
        simp only
        rw [if_neg hc, if_neg (not_not.2 hp.symm)]
      rw [this]
      refine ⟨fun h => ih.1 fun q hq => h q (List.mem_cons_of_mem _ hq), fun ⟨q, hq, h⟩ => ih.2 ⟨q, ?_, h⟩⟩
      rcases List.mem_cons.1 hq with rfl | hq
      · exact absurd hp h
      · exact hq
    · have : placeOrdered row last (b, left) (p, i) = .error .valueError := by
        unfold placeOrdered
        simp only
        rw [if_neg hc, if_pos (Ne.symm hp)]
      rw [this]
      exact ⟨fun h => absurd (h p List.mem_cons_self) hp, fun _ => rfl⟩

open Classical in
theorem end_step (row : List ℝ) (last left : ℤ) (b : Fin n → ℝ) (p : (ℝ × List Bool) × ℕ) (hc : p.2 = 0 ∨ (p.2 : ℤ) = last) :
    ((p.1.2.count true : ℤ) - row.count p.1.1 ≤ left → placeOrdered row last (b, left) p =
      .ok (setMask b p.1.2 p.1.1, left - max 0 ((p.1.2.count true : ℤ) - row.count p.1.1))) ∧
    (left < (p.1.2.count true : ℤ) - row.count p.1.1 → placeOrdered row last (b, left) p = .error .valueError) := by
  unfold placeOrdered
  simp only
  rw [if_pos hc]
  exact ⟨fun h => if_neg (not_lt.2 h), fun h => if_pos h⟩

/-- The classes of the sizes in the second list, taken in order, have room for the energies of the degeneracies in the first list, taken in order, if
only the first and the last one may get additional states, `left` in total. -/
def RoomOrdered (left : ℤ) (degs sizes : List ℕ) : Prop :=
  (∀ k, 0 < k → k + 1 < degs.length → sizes[k]? = degs[k]?) ∧
  ∀ c s : ℕ, degs[0]? = some c → sizes[0]? = some s → (s : ℤ) - c ≤ left ∧
    ∀ c' s' : ℕ, 1 < degs.length → degs[degs.length - 1]? = some c' → sizes[degs.length - 1]? = some s' → (s' : ℤ) - c' ≤ left - max 0 ((s : ℤ) - c)

open Classical in
theorem ordered_iff (row : List ℝ) (left : ℤ) (b : Fin n → ℝ) (l : List (ℝ × List Bool)) :
    (RoomOrdered left (l.map fun p => row.count p.1) (l.map fun p => p.2.count true) →
      ∃ st, l.zipIdx.foldlM (placeOrdered row ((l.length : ℤ) - 1)) (b, left) = .ok st) ∧
    (¬ RoomOrdered left (l.map fun p => row.count p.1) (l.map fun p => p.2.count true) →
      l.zipIdx.foldlM (placeOrdered row ((l.length : ℤ) - 1)) (b, left) = .error .valueError) := by
  cases l with
  | nil => exact ⟨fun _ => ⟨_, rfl⟩, fun h => absurd ⟨by simp, by simp⟩ h⟩
  | cons p l =>
    rw [List.zipIdx_cons, List.foldlM_cons]
    have h1 := end_step row (((p :: l).length : ℤ) - 1) left b (p, 0) (.inl rfl)
    simp only at h1
    by_cases hp : (p.2.count true : ℤ) - row.count p.1 ≤ left
    swap
    · rw [h1.2 (not_le.1 hp)]
      exact ⟨fun h => absurd ((h.2 _ _ rfl rfl).1) hp, fun _ => rfl⟩
    rw [h1.1 hp]
    rcases List.eq_nil_or_concat l with rfl | ⟨mid, q, rfl⟩
    · refine ⟨fun _ => ⟨_, rfl⟩, fun h => absurd ⟨fun k h1 h2 => ?_, fun c s hc hs => ?_⟩ h⟩
      · simp only [List.map_cons, List.map_nil, List.length_cons, List.length_nil] at h2
        omega
      · simp only [List.map_cons, List.map_nil, List.getElem?_cons_zero, Option.some.injEq] at hc hs
        subst hc hs
        exact ⟨hp, fun c' s' h => absurd h (by simp)⟩
    · rw [List.concat_eq_append] at h1 ⊢
      have hlen : (((p :: (mid ++ [q])).length : ℤ) - 1) = mid.length + 1 := by simp
      rw [hlen]
      change (_ → ∃ st, ((mid ++ [q]).zipIdx 1).foldlM (placeOrdered row (mid.length + 1)) (setMask b p.2 p.1, _) = .ok st) ∧
        (_ → ((mid ++ [q]).zipIdx 1).foldlM (placeOrdered row (mid.length + 1)) (setMask b p.2 p.1, _) = .error .valueError)
      rw [List.zipIdx_append, List.foldlM_append]
      set left' := left - max 0 ((p.2.count true : ℤ) - row.count p.1) with hleft'
      have h2 := middle_fold row (mid.length + 1) left' mid 1 (setMask b p.2 p.1) one_pos (by push_cast; omega)
      have hiff : RoomOrdered left ((p :: (mid ++ [q])).map fun p => row.count p.1) ((p :: (mid ++ [q])).map fun p => p.2.count true) ↔
          (∀ r ∈ mid, r.2.count true = row.count r.1) ∧ (q.2.count true : ℤ) - row.count q.1 ≤ left' := by
        unfold RoomOrdered
        simp only [List.map_cons, List.map_append, List.map_nil, List.length_cons, List.length_append, List.length_map, List.length_nil,
          List.getElem?_cons_zero, Option.some.injEq]
        constructor
        · rintro ⟨a1, a2⟩
          refine ⟨fun r hr => ?_, ?_⟩
          · obtain ⟨i, hi, rfl⟩ := List.getElem_of_mem hr
            have := a1 (i + 1) (by omega) (by omega)
            rw [List.getElem?_cons_succ, List.getElem?_cons_succ, List.getElem?_append_left (by simpa using hi),
              List.getElem?_append_left (by simpa using hi), List.getElem?_map, List.getElem?_map, List.getElem?_eq_getElem hi] at this
            simpa using this
          · refine (a2 _ _ rfl rfl).2 _ _ (by omega) ?_ ?_ <;> simp
        · rintro ⟨a1, a2⟩
          refine ⟨fun k hk1 hk2 => ?_, ?_⟩
          · obtain ⟨i, rfl⟩ : ∃ i, k = i + 1 := ⟨k - 1, by omega⟩
            have hi : i < mid.length := by omega
            rw [List.getElem?_cons_succ, List.getElem?_cons_succ, List.getElem?_append_left (by simpa using hi),
              List.getElem?_append_left (by simpa using hi), List.getElem?_map, List.getElem?_map, List.getElem?_eq_getElem hi]
            simp [a1 _ (List.getElem_mem hi)]
          · rintro c s rfl rfl
            refine ⟨hp, fun c' s' _ hc hs => ?_⟩
            simp at hc hs
            subst hc hs
            exact a2
      rw [hiff]
      have h3 : ∀ b' : Fin n → ℝ, ((q.2.count true : ℤ) - row.count q.1 ≤ left' → ∃ st, ([q].zipIdx (1 + mid.length)).foldlM (placeOrdered row (mid.length + 1)) (b', left') = .ok st) ∧
          (left' < (q.2.count true : ℤ) - row.count q.1 → ([q].zipIdx (1 + mid.length)).foldlM (placeOrdered row (mid.length + 1)) (b', left') = .error .valueError) := by
        intro b'
        have h4 := end_step row (mid.length + 1) left' b' (q, 1 + mid.length) (.inr (by push_cast; ring))
        simp only [List.zipIdx_cons, List.zipIdx_nil, List.foldlM_cons, List.foldlM_nil]
        refine ⟨fun h => ?_, fun h => ?_⟩
        · rw [h4.1 h]; exact ⟨_, rfl⟩
        · rw [h4.2 h]; rfl
      by_cases hm : ∀ r ∈ mid, r.2.count true = row.count r.1
      · obtain ⟨b', hb'⟩ := h2.1 hm
        rw [hb']
        refine ⟨fun h => (h3 b').1 h.2, fun h => (h3 b').2 (not_le.1 fun h' => h ⟨hm, h'⟩)⟩
      · have hm' := hm
        simp only [not_forall] at hm'
        obtain ⟨r, hr, hne⟩ := hm'
        rw [h2.2 ⟨r, hr, hne⟩]
        exact ⟨fun h => absurd h.1 hm, fun _ => rfl⟩

/-! ## groups -/

theorem groups_apart {ρ : UR.Rep ℝ ℂ d n} [DecidableEq ℂ] {groups : List (List Bool)} {counts : List ℕ} (h : ρ.subspaces = .ok (groups, counts)) :
    Apart n groups ∧ counts = groups.map (fun g => g.count true) ∧ groups.Nodup ∧ (∀ g ∈ groups, g.length = n ∧ g.count true ≠ 0 ∧ ∃ i, ∀ j : Fin n, On g j ↔ UR.Coupled ρ i j) := by
  have hr := UR.C91_result ρ groups counts h
  refine ⟨?_, hr.2.2.2.1, hr.1, fun g hg => ?_⟩
  · rw [UR.subspaces_eq] at h
    split_ifs at h with hif
    have h' := Except.ok.inj h
    obtain ⟨rfl, rfl⟩ := Prod.mk.inj h'
    intro g hg g' hg' j hj hj'
    have h1 := of_decide_eq_true (List.all_eq_true.1 hif.2 j.val (List.mem_range.2 j.2))
    rw [List.countP_eq_length_filter] at h1
    obtain ⟨x, hx⟩ := List.length_eq_one_iff.1 h1
    have a1 : g ∈ (UR.groupsOf ρ).filter fun g => g.getD j.val false := List.mem_filter.2 ⟨hg, hj⟩
    have a2 : g' ∈ (UR.groupsOf ρ).filter fun g => g.getD j.val false := List.mem_filter.2 ⟨hg', hj'⟩
    rw [hx, List.mem_singleton] at a1 a2
    rw [a1, a2]
  · obtain ⟨i, hi⟩ := (hr.2.2.1 g).1 hg
    rw [UR.isRow_iff] at hi
    have h0 : g.count true ≠ 0 := by
      rw [UR.subspaces_eq] at h
      split_ifs at h with hif
      have h' := Except.ok.inj h
      obtain ⟨rfl, rfl⟩ := Prod.mk.inj h'
      rw [List.map_inj_left.1 hif.1 g hg]
      have : g ∈ ρ.occupancy := by rw [UR.occupancy_eq, hi]; exact List.mem_map_of_mem (List.mem_finRange i)
      have := List.count_pos_iff.2 this
      omega
    subst hi
    exact ⟨UR.row_length ρ i, h0, i, fun j => UR.row_getD ρ i j⟩

open Classical in
theorem card_on {g : List Bool} (h : g.length = n) : (Finset.univ.filter fun j : Fin n => On g j).card = g.count true := by
  have e : g = (List.finRange n).map fun j => g.getD j.val false := by
    refine List.ext_getElem (by simp [h]) fun i h1 h2 => ?_
    simp [List.getD, List.getElem?_eq_getElem h1]
  conv_rhs => rw [e]
  rw [List.count, List.countP_map, Fin.univ_def, Finset.card, Finset.filter]
  simp only [Multiset.filter_coe, Multiset.coe_card, List.countP_eq_length_filter]
  congr 2
  funext j
  simp [On]

open Classical in
/-- The number of states with the energy of a placed value. -/
theorem Inv.card {base : ℝ} {G rem : List (List Bool)} {done : List (ℝ × List Bool)} {bands : Fin n → ℝ} (h : Inv base G done rem bands)
    (hG : ∀ g ∈ G, g.length = n) {p : ℝ × List Bool} (hp : p ∈ done) : (Finset.univ.filter fun j => bands j = p.1).card = p.2.count true := by
  obtain ⟨h1, -, h3⟩ := h.carried p hp
  rw [← card_on (hG _ h1)]
  congr 1
  ext j
  simp [h3]

end TB.TbmInit
