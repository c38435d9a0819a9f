import Verif.Lemmas.Reduce
import Verif.Props.SymmetryPoints

/-!
# Properties C11 and C15: reducing k-points and completing neighbour lists
-/

set_option linter.unusedSectionVars false

namespace TB
open Spec

variable {K : Type} [Field K] [LinearOrder K] [IsStrictOrderedRing K] {d : ℕ} {D : Type} [DecidableEq D]

theorem reduce_sorted {σ : Sym K d} (ho : σ.isOrthogonal = true) (κ ρ : K → K) (checked : Bool)
    (ks : List (Vec K d × D)) (hne : ks ≠ []) (hnd : (ks.map Prod.fst).Nodup)
    (hρ : ∀ a ∈ ks, ∀ b ∈ ks, ρ (sqNorm a.1) ≤ ρ (sqNorm b.1) → sqNorm a.1 ≤ sqNorm b.1 * (10001 / 10000) ^ 2) :
    ∃ l : List (Vec K d × D), l.Perm ks ∧ (l.map Prod.fst).Nodup ∧
      (l.Pairwise fun p q => sqNorm p.1 ≤ sqNorm q.1 * brk) ∧
      σ.reduce κ ρ checked ks = σ.reduceLoop checked l.length l := by
  have hp := (stableSort_perm (fun p : Vec K d × D => ρ (sqNorm p.1)) (sortCoords κ Prod.fst ks)).trans
    (sortCoords_perm κ Prod.fst ks)
  refine ⟨_, hp, (hp.map Prod.fst).nodup_iff.2 hnd, ?_, ?_⟩
  · have := stableSort_pairwise (key := fun p : Vec K d × D => ρ (sqNorm p.1)) (R := fun _ _ => True)
      (l := sortCoords κ Prod.fst ks) (List.pairwise_iff_forall_sublist.2 fun _ => trivial)
    refine List.Pairwise.imp_of_mem ?_ this
    intro a b ha hb h
    refine hρ a (hp.mem_iff.1 ha) b (hp.mem_iff.1 hb) ?_
    rcases h with h | h
    · exact h.le
    · exact h.1.le
  · unfold Sym.reduce
    rw [if_neg (by simpa using hne)]
    simp only [ho, Bool.not_true, Bool.false_eq_true, if_false]

/-- **C11** `reduce_symmetric_data` returns some of the input points with their own data, one for each orbit.
`hρ` says that two points whose squared norms are ordered by the rounded key are ordered (up to the 0.01 % that the
search tolerates) by their true norm; for the rounding to two decimals used by the code this is a real restriction,
see `C11_reduce_rounding_defect`. -/
theorem C11_reduce_representatives (σ : Sym K d) (hg : IsMatGroup σ.ops) (ho : σ.isOrthogonal = true) (κ ρ : K → K)
    (checked : Bool) (ks : List (Vec K d × D)) (hnd : (ks.map Prod.fst).Nodup)
    (hρ : ∀ a ∈ ks, ∀ b ∈ ks, ρ (sqNorm a.1) ≤ ρ (sqNorm b.1) → sqNorm a.1 ≤ sqNorm b.1 * (10001 / 10000) ^ 2)
    (out : List (Vec K d × D)) (h : σ.reduce κ ρ checked ks = .ok out) :
    (∀ p ∈ out, p ∈ ks) ∧ out.Nodup ∧
    (∀ p ∈ ks, ∃ q ∈ out, ∃ s ∈ σ.ops, p.1 = s.mulVec q.1) ∧
    (∀ p ∈ out, ∀ q ∈ out, (∃ s ∈ σ.ops, q.1 = s.mulVec p.1) → p = q) := by
  have hne : ks ≠ [] := by rintro rfl; simp [Sym.reduce] at h
  obtain ⟨l, hp, hl, hs, he⟩ := reduce_sorted ho κ ρ checked ks hne hnd hρ
  rw [he] at h
  obtain ⟨h1, h2, h3⟩ := (reduceLoop_spec hg ho checked _ l le_rfl hl hs).1 out h
  refine ⟨fun p hpo => hp.mem_iff.1 (h1.subset hpo), ?_, ?_, ?_⟩
  · exact (List.Nodup.of_map _ hl).sublist h1
  · intro p hpk
    obtain ⟨q, hq, hs', -⟩ := h2 p (hp.mem_iff.2 hpk)
    exact ⟨q, hq, hs'⟩
  · intro p hpo q hqo hs'
    by_contra hpq
    have h3' : out.Pairwise (fun p q => (∀ s ∈ σ.ops, q.1 ≠ s.mulVec p.1) ∧ (∀ s ∈ σ.ops, p.1 ≠ s.mulVec q.1)) := by
      refine h3.imp ?_
      intro a b hab
      refine ⟨hab, ?_⟩
      intro s hs he'
      obtain ⟨t, ht, hst, hts⟩ := hg.inv_mem s hs
      exact hab t ht (by rw [he', Matrix.mulVec_mulVec, hts, Matrix.one_mulVec])
    have hsym : Std.Symm (fun p q : Vec K d × D =>
        (∀ s ∈ σ.ops, q.1 ≠ s.mulVec p.1) ∧ (∀ s ∈ σ.ops, p.1 ≠ s.mulVec q.1)) := ⟨fun a b hab => ⟨hab.2, hab.1⟩⟩
    have := h3'.forall hpo hqo hpq
    obtain ⟨s, hs, he'⟩ := hs'
    exact this.1 s hs he'

/-- **C11** Under the same conditions: without the check it always returns; with the check it returns exactly when
the data agrees on equivalent points and raises `ValueError` otherwise. -/
theorem C11_reduce_check (σ : Sym K d) (hg : IsMatGroup σ.ops) (ho : σ.isOrthogonal = true) (κ ρ : K → K)
    (ks : List (Vec K d × D)) (hne : ks ≠ []) (hnd : (ks.map Prod.fst).Nodup)
    (hρ : ∀ a ∈ ks, ∀ b ∈ ks, ρ (sqNorm a.1) ≤ ρ (sqNorm b.1) → sqNorm a.1 ≤ sqNorm b.1 * (10001 / 10000) ^ 2) :
    (∃ out, σ.reduce κ ρ false ks = .ok out) ∧
    ((∃ out, σ.reduce κ ρ true ks = .ok out) ↔
      ∀ p ∈ ks, ∀ q ∈ ks, (∃ s ∈ σ.ops, q.1 = s.mulVec p.1) → p.2 = q.2) ∧
    (∀ e, σ.reduce κ ρ true ks = .error e → e = .valueError) := by
  refine ⟨?_, ?_, ?_⟩
  · obtain ⟨l, hp, hl, hs, he⟩ := reduce_sorted ho κ ρ false ks hne hnd hρ
    rw [he]
    cases h : σ.reduceLoop false l.length l with
    | ok r => exact ⟨r, rfl⟩
    | error e => have := ((reduceLoop_spec hg ho false _ l le_rfl hl hs).2 e h).2.1; simp at this
  · obtain ⟨l, hp, hl, hs, he⟩ := reduce_sorted ho κ ρ true ks hne hnd hρ
    constructor
    · rintro ⟨out, h⟩ p hpk q hqk ⟨s, hs', hpq⟩
      obtain ⟨-, -, -, hu⟩ := C11_reduce_representatives σ hg ho κ ρ true ks hnd hρ out h
      rw [he] at h
      obtain ⟨-, h2, -⟩ := (reduceLoop_spec hg ho true _ l le_rfl hl hs).1 out h
      obtain ⟨p', hp', ⟨t, ht, het⟩, hpd⟩ := h2 p (hp.mem_iff.2 hpk)
      obtain ⟨q', hq', ⟨u, hu', heu⟩, hqd⟩ := h2 q (hp.mem_iff.2 hqk)
      obtain ⟨v, hv, huv, hvu⟩ := hg.inv_mem u hu'
      have : p' = q' := hu p' hp' q' hq' ⟨v * s * t, hg.mul_mem _ (hg.mul_mem _ hv _ hs') _ ht, by
        rw [← Matrix.mulVec_mulVec, ← het, ← Matrix.mulVec_mulVec, ← hpq, heu, Matrix.mulVec_mulVec, hvu,
          Matrix.one_mulVec]⟩
      rw [hpd rfl, hqd rfl, this]
    · intro hd
      rw [he]
      cases h : σ.reduceLoop true l.length l with
      | ok r => exact ⟨r, rfl⟩
      | error e =>
        obtain ⟨-, -, p, hpl, q, hql, hs', hv⟩ := (reduceLoop_spec hg ho true _ l le_rfl hl hs).2 e h
        exact absurd (hd p (hp.mem_iff.1 hpl) q (hp.mem_iff.1 hql) hs') hv
  · intro e h
    obtain ⟨l, hp, hl, hs, he⟩ := reduce_sorted ho κ ρ true ks hne hnd hρ
    rw [he] at h
    exact ((reduceLoop_spec hg ho true _ l le_rfl hl hs).2 e h).1

/-- **C11** A symmetry that is not orthogonal is rejected. -/
theorem C11_reduce_rejects (σ : Sym K d) (ho : σ.isOrthogonal = false) (κ ρ : K → K) (checked : Bool)
    (ks : List (Vec K d × D)) (hne : ks ≠ []) : σ.reduce κ ρ checked ks = .error .assertionError := by
  unfold Sym.reduce
  rw [if_neg (by simpa using hne)]
  simp [ho]

/-- `np.round(x, 2)` up to ties -/
def round2 (x : ℚ) : ℚ := (round (100 * x) : ℚ) / 100

/-- eight points of two orbits and the origin; the rounding to two decimals is harmless here -/
example : ∃ out, (⟨[1, rot4, -1, -rot4], false⟩ : Sym ℚ 2).reduce (fun x => (round (10000 * x) : ℚ) / 10000) round2 true
      [(![1, 0], 5), (![0, 1], 5), (![0, -1], 5), (![0, 0], 1), (![2, 1], 7), (![-1, 2], 7)] = .ok out ∧
    decide (out = [(![0, 0], 1), (![0, -1], 5), (![2, 1], 7)]) = true :=
  okAnd_iff.1 (by decide +kernel)

example : (⟨[1, rot4, -1, -rot4], false⟩ : Sym ℚ 2).reduce id round2 true
      [(![1, 0], 5), (![0, 1], 6)] = .error .valueError := by decide +kernel

/-- **C11** (defect) With the code's rounding of the squared norm to two decimals the result can contain two
equivalent points: for the mirror `y ↦ -y` and the points `(0, -0.01)`, `(0.05, 0)`, `(0, 0.01)`. -/
theorem C11_reduce_rounding_defect : ∃ (σ : Sym ℚ 2) (ks out : List (Vec ℚ 2 × ℕ)),
    fromGenerator [mirY] false = .ok σ ∧ σ.isOrthogonal = true ∧ (ks.map Prod.fst).Nodup ∧
    σ.reduce (fun x => (round (10000 * x) : ℚ) / 10000) round2 true ks = .ok out ∧
    ∃ p ∈ out, ∃ q ∈ out, p ≠ q ∧ ∃ s ∈ σ.ops, q.1 = s.mulVec p.1 := by
  refine ⟨⟨[1, mirY], false⟩, [(![0, -1/100], 0), (![1/20, 0], 1), (![0, 1/100], 0)],
    [(![0, -1/100], 0), (![1/20, 0], 1), (![0, 1/100], 0)], by decide +kernel, by decide +kernel, by decide +kernel,
    by decide +kernel, (![0, -1/100], 0), by decide +kernel, (![0, 1/100], 0), by decide +kernel, by decide +kernel,
    mirY, by decide +kernel, by decide +kernel⟩

/-! ## complete_neighbors -/

theorem transpose_constructed (σ : Sym K d) (hσ : ∃ S inv, mkSym S inv = .ok σ) :
    σ.transpose = .ok ⟨σ.S.map fun s : Mat K d => s.transpose, σ.inversion⟩ := by
  refine Sym.Constructed.map (σ := σ) hσ (φ := fun s : Mat K d => s.transpose) (by simp) (by intro s; simp) ?_ ?_
  · intro a b _ _ h; exact Matrix.transpose_injective h
  · intro s hs; rw [Matrix.det_transpose]; exact Sym.Constructed.det hσ s hs

theorem firstPositive_neg {v : Vec K d} (h : v ≠ 0) : firstPositive (-v) = !firstPositive v := by
  unfold firstPositive
  have hf : (fun i => decide ((-v) i ≠ 0)) = fun i => decide (v i ≠ 0) := by funext i; simp
  rw [hf]
  cases hi : (List.finRange d).find? (fun i => decide (v i ≠ 0)) with
  | none =>
    exfalso
    apply h
    funext i
    have := List.find?_eq_none.1 hi i (by simp)
    simpa using this
  | some i =>
    have h0 : v i ≠ 0 := by simpa using List.find?_some hi
    simp only [Pi.neg_apply, Left.neg_pos_iff]
    rcases lt_or_gt_of_ne h0 with h | h
    · simp [h, h.le]
    · simp [h, h.le]

theorem firstPositive_zero : firstPositive (0 : Vec K d) = true := by
  unfold firstPositive
  rw [List.find?_eq_none.2 (by simp)]

theorem dedupFirst_spec {α β : Type} [DecidableEq α] (l acc : List (α × β)) (ha : (acc.map Prod.fst).Nodup) :
    let r := l.foldl (fun acc p => if p.1 ∈ acc.map Prod.fst then acc else acc ++ [p]) acc
    (r.map Prod.fst).Nodup ∧ (∀ p ∈ r, p ∈ acc ∨ p ∈ l) ∧
      (∀ x, x ∈ r.map Prod.fst ↔ x ∈ acc.map Prod.fst ∨ x ∈ l.map Prod.fst) := by
  induction l generalizing acc with
  | nil => simp [ha]
  | cons p l ih =>
    simp only [List.foldl_cons]
    by_cases h : p.1 ∈ acc.map Prod.fst
    · rw [if_pos h]
      obtain ⟨h1, h2, h3⟩ := ih acc ha
      refine ⟨h1, ?_, ?_⟩
      · intro q hq
        rcases h2 q hq with h' | h'
        · exact Or.inl h'
        · exact Or.inr (by simp [h'])
      · intro x
        rw [h3 x, List.map_cons, List.mem_cons]
        constructor
        · rintro (h' | h')
          · exact Or.inl h'
          · exact Or.inr (Or.inr h')
        · rintro (h' | rfl | h')
          · exact Or.inl h'
          · exact Or.inl h
          · exact Or.inr h'
    · rw [if_neg h]
      obtain ⟨h1, h2, h3⟩ := ih (acc ++ [p]) (by
        rw [List.map_append, List.nodup_append]
        refine ⟨ha, by simp, ?_⟩
        intro a haa b hb
        simp only [List.map_cons, List.map_nil, List.mem_singleton] at hb
        rintro rfl
        exact h (hb ▸ haa))
      refine ⟨h1, ?_, ?_⟩
      · intro q hq
        rcases h2 q hq with h' | h'
        · rcases List.mem_append.1 h' with h' | h'
          · exact Or.inl h'
          · right; rw [List.mem_singleton] at h'; simp [h']
        · exact Or.inr (by simp [h'])
      · intro x
        rw [h3 x, List.map_append, List.mem_append, List.map_cons (l := l), List.mem_cons]
        simp only [List.map_cons, List.map_nil, List.mem_singleton]
        exact or_assoc

/-- **C15** `complete_neighbors`: every returned position is an image (under a transposed operation) of the named
source; nothing is repeated, lengths never decrease, the first nonzero coordinate is positive.  If the inversion `-1`
is among the operations, each image is represented exactly once up to sign. -/
theorem C15_complete_neighbors [FloorRing K] (σ : Sym K d) (hσ : ∃ S inv, mkSym S inv = .ok σ)
    (hg : IsMatGroup σ.ops) (κ : K → K) (ns : List (Vec K d)) (hne : ns ≠ []) :
    ∃ out, σ.completeNeighbors κ ns = .ok out ∧
      (∀ x i, (x, i) ∈ out → ∃ r, ns[i]? = some r ∧ ∃ s ∈ σ.ops, x = s.transpose.mulVec r) ∧
      (out.map Prod.fst).Nodup ∧
      out.Pairwise (fun p q => sqNorm p.1 ≤ sqNorm q.1) ∧
      (∀ x ∈ out.map Prod.fst, x ≠ 0 → ∃ i, 0 < x i ∧ ∀ j < i, x j = 0) ∧
      ((-1 : Mat K d) ∈ σ.ops → ∀ r ∈ ns, ∀ s ∈ σ.ops,
        (s.transpose.mulVec r ∈ out.map Prod.fst ∨ -s.transpose.mulVec r ∈ out.map Prod.fst) ∧
        (s.transpose.mulVec r ∈ out.map Prod.fst → -s.transpose.mulVec r ∈ out.map Prod.fst →
          s.transpose.mulVec r = 0)) := by
  unfold Sym.completeNeighbors
  rw [transpose_constructed σ hσ]
  simp only
  set τ : Sym K d := ⟨σ.S.map fun s : Mat K d => s.transpose, σ.inversion⟩ with hτ
  have hops : ∀ x, x ∈ τ.ops ↔ ∃ s ∈ σ.ops, x = s.transpose := by
    intro x
    exact mem_ops_map (σ := σ) (φ := fun s : Mat K d => s.transpose) (by intro s; simp)
  obtain ⟨l, hl⟩ := realize_ok (σ := τ) (κ := κ) (unitCell := false) hne
  rw [hl]
  simp only
  obtain ⟨h1, h2, -⟩ := realize_spec ((hops 1).2 ⟨1, hg.one_mem, by simp⟩) hl
  simp only [Bool.false_eq_true, if_false] at h1 h2
  obtain ⟨d1, d2, d3⟩ := dedupFirst_spec l [] (by simp)
  simp only [List.not_mem_nil, false_or, List.map_nil] at d1 d2 d3
  set l1 := l.foldl (fun acc p => if p.1 ∈ acc.map Prod.fst then acc else acc ++ [p]) [] with hl1
  have hmem : ∀ p, p ∈ stableSort (fun p : Vec K d × ℕ => sqNorm p.1) (l1.filter fun p => firstPositive p.1) ↔
      p ∈ l1 ∧ firstPositive p.1 = true := by
    intro p; rw [mem_stableSort, List.mem_filter]
  have hx1 : ∀ x, x ∈ (stableSort (fun p : Vec K d × ℕ => sqNorm p.1)
      (l1.filter fun p => firstPositive p.1)).map Prod.fst ↔ x ∈ l.map Prod.fst ∧ firstPositive x = true := by
    intro x
    rw [← d3 x]
    constructor
    · intro h
      obtain ⟨p, hp, rfl⟩ := List.mem_map.1 h
      obtain ⟨a, b⟩ := (hmem p).1 hp
      exact ⟨List.mem_map.2 ⟨p, a, rfl⟩, b⟩
    · rintro ⟨h, hpos⟩
      obtain ⟨p, hp, rfl⟩ := List.mem_map.1 h
      exact List.mem_map.2 ⟨p, (hmem p).2 ⟨hp, hpos⟩, rfl⟩
  refine ⟨_, rfl, ?_, ?_, ?_, ?_, ?_⟩
  · intro x i hx
    obtain ⟨r, hr, s, hs, he⟩ := h1 x i (d2 _ ((hmem _).1 hx).1)
    obtain ⟨s', hs', rfl⟩ := (hops s).1 hs
    exact ⟨r, hr, s', hs', he⟩
  · exact ((stableSort_perm _ _).map Prod.fst).nodup_iff.2 (d1.sublist (List.filter_sublist.map _))
  · have := stableSort_pairwise (key := fun p : Vec K d × ℕ => sqNorm p.1) (R := fun _ _ => True)
      (l := l1.filter fun p => firstPositive p.1) (List.pairwise_iff_forall_sublist.2 fun _ => trivial)
    refine this.imp ?_
    rintro a b (h | h)
    · exact h.le
    · exact h.1.le
  · intro x hx hx0
    have hpos := ((hx1 x).1 hx).2
    unfold firstPositive at hpos
    cases hi : (List.finRange d).find? (fun i => decide (x i ≠ 0)) with
    | none =>
      exfalso
      apply hx0
      funext i
      simpa using List.find?_eq_none.1 hi i (by simp)
    | some i =>
      rw [hi] at hpos
      refine ⟨i, by simpa using hpos, ?_⟩
      intro j hj
      by_contra hxj
      obtain ⟨-, as, bs, hsplit, has⟩ := List.find?_eq_some_iff_append.1 hi
      have hsorted := List.pairwise_lt_finRange d
      have hmemj : j ∈ List.finRange d := by simp
      rw [hsplit] at hmemj hsorted
      rcases List.mem_append.1 hmemj with hj' | hj'
      · have := has j hj'; simp at this; exact hxj this
      · rcases List.mem_cons.1 hj' with rfl | hj'
        · exact lt_irrefl _ hj
        · have := (List.pairwise_cons.1 (List.pairwise_append.1 hsorted).2.1).1 j hj'
          exact lt_asymm this hj
  · intro hm r hr s hs
    obtain ⟨i, hi⟩ := List.mem_iff_getElem?.1 hr
    have hin : ∀ s ∈ σ.ops, s.transpose.mulVec r ∈ l.map Prod.fst := by
      intro s hs
      obtain ⟨j, hj⟩ := h2 i r hi s.transpose ((hops _).2 ⟨s, hs, rfl⟩)
      exact List.mem_map.2 ⟨_, hj, rfl⟩
    have ha := hin s hs
    have hb : -s.transpose.mulVec r ∈ l.map Prod.fst := by
      have := hin (-1 * s) (hg.mul_mem _ hm _ hs)
      simpa [Matrix.neg_mulVec] using this
    rw [hx1, hx1]
    by_cases h0 : s.transpose.mulVec r = 0
    · refine ⟨Or.inl ⟨ha, ?_⟩, fun _ _ => h0⟩
      rw [h0]; exact firstPositive_zero
    · have hn := firstPositive_neg h0
      cases hp : firstPositive (s.transpose.mulVec r)
      · refine ⟨Or.inr ⟨hb, by rw [hn, hp]; rfl⟩, fun h => by simp at h⟩
      · refine ⟨Or.inl ⟨ha, rfl⟩, fun _ h => ?_⟩
        rw [hn, hp] at h; simp at h

example : ∃ out, (⟨[1, rot4, -1, -rot4], false⟩ : Sym ℚ 2).completeNeighbors id [![0, 0], ![1, 0]] = .ok out ∧
    decide (out = [(![0, 0], 0), (![1, 0], 1), (![0, 1], 1)]) = true := okAnd_iff.1 (by decide +kernel)

/-- **C15** (boundary) Without the inversion a hopping can disappear: the trivial group loses `(-1, 0, 0)`. -/
theorem C15_lost_without_inversion : ∃ σ : Sym ℚ 3, mkSym [1] false = .ok σ ∧
    σ.completeNeighbors id [![-1, 0, 0]] = .ok [] := ⟨⟨[1], false⟩, by decide +kernel, by decide +kernel⟩

end TB
