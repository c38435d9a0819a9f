import Verif.Lemmas.Symmetrizer

/-!
# Properties: `symmetrizer` is `symmetrize` (C86)
-/

namespace TB.UR
open Spec Matrix

set_option linter.unusedSectionVars false

variable {K : Type} [Field K] [LinearOrder K] [IsStrictOrderedRing K] {d : ℕ}
variable {F : Type} [Field F] [StarRing F] [DecidableEq F] {N : ℕ}

theorem rowsOf_length (S : List (Mat K d)) (ns : List (Fin d → K)) : (rowsOf S ns).length = ns.length := by simp [rowsOf]

theorem rowsOf_get (S : List (Mat K d)) (ns : List (Fin d → K)) (i : ℕ) (hi : i < ns.length) :
    (rowsOf S ns)[i]'(by simpa [rowsOf] using hi) = S.map fun s => (npos ns (s.mulVec ns[i]), nkind ns (s.mulVec ns[i])) := by
  simp [rowsOf]

theorem rowsOf_getD (S : List (Mat K d)) (ns : List (Fin d → K)) (i : ℕ) (hi : i < ns.length) :
    (rowsOf S ns).getD i [] = S.map fun s => (npos ns (s.mulVec ns[i]), nkind ns (s.mulVec ns[i])) := by
  simp [rowsOf, List.getD, hi]

/-- The relation of the classes. -/
def Linked (S : List (Mat K d)) (ns : List (Fin d → K)) (i x : ℕ) : Prop :=
  ∃ s ∈ S, ∃ (hi : i < ns.length) (hx : x < ns.length), s.mulVec ns[i] = ns[x] ∨ s.mulVec ns[i] = -ns[x]

section
variable (ρ : Rep K F d N) (ns : List (Fin d → K))

theorem linked_symm (hρ : IsRep ρ) (hu : IsUnitary ρ) (hc : ρ.sym.Constructed) {i x : ℕ}
    (h : Linked ρ.sym.S ns i x) : Linked ρ.sym.S ns x i := by
  obtain ⟨s, hs, hi, hx, h⟩ := h
  have hg := pairGroup_of ρ hρ hu hc
  obtain ⟨u, hsu⟩ : ∃ u, (s, u) ∈ ρ.sym.S.zip ρ.U := by
    obtain ⟨m, hm, rfl⟩ := List.getElem_of_mem hs
    refine ⟨ρ.U[m]'(hρ.len ▸ hm), ?_⟩
    rw [List.mem_iff_getElem]
    exact ⟨m, by simp [← hρ.len, hm], by simp⟩
  have hdet := hg.det _ hsu
  have hinv := (List.of_mem_zip (hg.inv_mem hsu)).1
  refine ⟨s⁻¹, hinv, hx, hi, ?_⟩
  have hback : s⁻¹.mulVec (s.mulVec ns[i]) = ns[i] := by
    rw [Matrix.mulVec_mulVec, Matrix.nonsing_inv_mul _ hdet, Matrix.one_mulVec]
  rcases h with h | h
  · left; rw [← h, hback]
  · right
    have : ns[x] = -(s.mulVec ns[i]) := by rw [h, neg_neg]
    rw [this, Matrix.mulVec_neg, hback]

theorem linked_trans (hρ : IsRep ρ) {i x y : ℕ}
    (h1 : Linked ρ.sym.S ns i x) (h2 : Linked ρ.sym.S ns x y) : Linked ρ.sym.S ns i y := by
  obtain ⟨s, hs, hi, hx, h⟩ := h1
  obtain ⟨t, ht, _, hy, h'⟩ := h2
  have hmul : t * s ∈ ρ.sym.S := by
    have hz : ∀ s ∈ ρ.sym.S, ∃ u, (s, u) ∈ ρ.sym.S.zip ρ.U := by
      intro s hs
      obtain ⟨m, hm, rfl⟩ := List.getElem_of_mem hs
      refine ⟨ρ.U[m]'(hρ.len ▸ hm), ?_⟩
      rw [List.mem_iff_getElem]
      exact ⟨m, by simp [← hρ.len, hm], by simp⟩
    obtain ⟨u, hu⟩ := hz s hs
    obtain ⟨v, hv⟩ := hz t ht
    exact (List.of_mem_zip (hρ.mul _ hv _ hu)).1
  refine ⟨t * s, hmul, hi, hy, ?_⟩
  rw [← Matrix.mulVec_mulVec]
  rcases h with h | h <;> rcases h' with h' | h' <;> rw [h]
  · exact Or.inl h'
  · exact Or.inr h'
  · right; rw [Matrix.mulVec_neg, h']
  · left; rw [Matrix.mulVec_neg, h', neg_neg]

/-- The dictionary of row `i` has the keys of the other members of the class. -/
theorem repClass_iff (hc : ρ.sym.Constructed) (hns : HalfList ns) (hcl : ClosedUpToSign ρ ns) {i x : ℕ}
    (hi : i < ns.length) :
    (repClass i ((rowsOf ρ.sym.S ns).getD i []) x).isSome = true ↔ x ≠ i ∧ Linked ρ.sym.S ns i x := by
  rw [rowsOf_getD _ _ _ hi]
  constructor
  · intro h
    obtain ⟨⟨m, b⟩, hmb⟩ := Option.isSome_iff_exists.1 h
    obtain ⟨h1, hm, h2⟩ := repClass_sound hmb
    refine ⟨h1, ?_⟩
    rw [List.getElem_map] at h2
    have hm' : m < ρ.sym.S.length := by simpa using hm
    have hmem := hcl ns[i] (List.getElem_mem hi) _ (List.getElem_mem hm')
    have hx : npos ns (ρ.sym.S[m].mulVec ns[i]) = x := (Prod.mk.injEq _ _ _ _ ▸ h2).1
    have hlt := npos_lt hmem
    refine ⟨_, List.getElem_mem hm', hi, hx ▸ hlt, ?_⟩
    have := npos_spec hmem
    simp only [hx] at this
    rcases this with ⟨-, h⟩ | ⟨-, h⟩
    · exact Or.inl h.symm
    · exact Or.inr (by rw [h, neg_neg])
  · rintro ⟨hne, s, hs, _, hx, h⟩
    have h0 : s.mulVec ns[i] ≠ 0 := by
      intro h0
      have hdet := isUnit_det_of_abs (hc.det _ hs)
      have h1 : ns[i] = 0 := by
        have : s⁻¹.mulVec (s.mulVec ns[i]) = ns[i] := by
          rw [Matrix.mulVec_mulVec, Matrix.nonsing_inv_mul _ hdet, Matrix.one_mulVec]
        rw [← this, h0, Matrix.mulVec_zero]
      have h2 : ns[x] = 0 := by
        rcases h with h | h
        · rw [← h, h0]
        · rw [← neg_eq_zero, ← h, h0]
      exact hne ((hns.nodup.getElem_inj_iff).1 (h2.trans h1.symm))
    have hpos : npos ns (s.mulVec ns[i]) = x := by
      rcases h with h | h <;> rw [h]
      · exact npos_self hns hx
      · exact npos_neg hns hx
    refine repClass_complete (kd := nkind ns (s.mulVec ns[i])) ?_ hne ?_
    · unfold nkind
      rw [if_neg h0]
      split_ifs <;> simp
    · exact List.mem_map.2 ⟨s, hs, by rw [hpos]⟩

/-- The keys of `classes`: the neighbours without an earlier member of the same class. -/
theorem classes_mem (hc : ρ.sym.Constructed) (hns : HalfList ns) (hcl : ClosedUpToSign ρ ns) (i : ℕ) :
    i ∈ (classLoop 0 (rowsOf ρ.sym.S ns) ([], fun _ => false)).1 ↔
      i < ns.length ∧ ∀ j < i, ¬ Linked ρ.sym.S ns j i := by
  rw [classLoop_mem]
  simp only [List.not_mem_nil, false_or, Nat.zero_le, true_and, zero_add, rowsOf_length, Nat.sub_zero, forall_const]
  refine and_congr_right fun hi => forall_congr' fun j => imp_congr_right fun hj => ?_
  rw [← Bool.not_eq_true, repClass_iff ρ ns hc hns hcl (by omega)]
  constructor
  · intro h hl; exact h ⟨by omega, hl⟩
  · intro h hl; exact h hl.2

end

/-- Sum over the tasks of one kind. -/
theorem addAt_eq (U H : List (Mat F N)) (S : List (Mat K d)) (ns : List (Fin d → K)) (hl : S.length = U.length) (kd : Kind)
    (classes : List ℕ) (res : ℕ → Mat F N) (i : ℕ) (hi : i < ns.length) (hic : i ∈ classes) :
    addAt U H ((tasksOf kd (rowsOf S ns)).filter fun t => decide (t.1 ∈ classes)) res i =
      res i + ((S.zip U).map fun p => if nkind ns (p.1.mulVec ns[i]) = kd then
        p.2.conjTranspose * H.getD (npos ns (p.1.mulVec ns[i])) 0 * p.2 else 0).sum := by
  unfold addAt
  congr 1
  have h1 : ((tasksOf kd (rowsOf S ns)).filter fun t => decide (t.1 ∈ classes)).filter (fun t => decide (t.1 = i)) =
      (tasksOf kd (rowsOf S ns)).filter (fun t => decide (t.1 = i)) := by
    rw [List.filter_filter]
    refine List.filter_congr fun t _ => ?_
    by_cases h : t.1 = i
    · simp [h, hic]
    · simp [h]
  rw [h1, tasksOf_filter kd _ i (by rw [rowsOf_length]; exact hi), rowsOf_get S ns i hi]
  have key : ∀ (S' : List (Mat K d)) (U' : List (Mat F N)) (a : ℕ), S'.length = U'.length →
      (∀ m (hm : m < U'.length), U.getD (a + m) 0 = U'[m]) →
      ((((S'.map fun s => (npos ns (s.mulVec ns[i]), nkind ns (s.mulVec ns[i]))).zipIdx a).filterMap fun t =>
        if t.1.2 = kd then some (i, t.1.1, t.2) else none).map fun t =>
          (U.getD t.2.2 0).conjTranspose * H.getD t.2.1 0 * U.getD t.2.2 0).sum =
      ((S'.zip U').map fun p => if nkind ns (p.1.mulVec ns[i]) = kd then
        p.2.conjTranspose * H.getD (npos ns (p.1.mulVec ns[i])) 0 * p.2 else 0).sum := by
    intro S'
    induction S' with
    | nil => intro U' a _ _; simp
    | cons s S' ih =>
      intro U' a hlen hU
      cases U' with
      | nil => simp at hlen
      | cons u U' =>
        have h0 : U.getD a 0 = u := hU 0 (by simp)
        have hrec := ih U' (a + 1) (by simpa using hlen) (by
          intro m hm
          have := hU (m + 1) (by simpa using hm)
          rw [add_assoc, add_comm 1 m, this]
          simp)
        rw [List.map_cons, List.zipIdx_cons, List.filterMap_cons, List.zip_cons_cons, List.map_cons, List.sum_cons, ← hrec]
        by_cases hk : nkind ns (s.mulVec ns[i]) = kd
        · simp only [hk, if_true, List.map_cons, List.sum_cons, h0]
        · simp only [hk, if_false, zero_add]
  exact key S U 0 hl (by intro m hm; simp [List.getD, hm])

section
variable [CharZero F] (ρ : Rep K F d N) (ns : List (Fin d → K))

theorem conj_flip (hρ : IsRep ρ) (hinv : ρ.sym.inversion = true) {p : Mat K d × Mat F N} (hp : p ∈ ρ.sym.S.zip ρ.U) (X : Mat F N) :
    flipBlocks ρ.invSplit (p.2.conjTranspose * X * p.2) = p.2.conjTranspose * flipBlocks ρ.invSplit X * p.2 ∧
    flipBlocks ρ.invSplit (p.2 * X * p.2.conjTranspose) = p.2 * flipBlocks ρ.invSplit X * p.2.conjTranspose ∧
    zeroBlocks ρ.invSplit (p.2.conjTranspose * X * p.2) = p.2.conjTranspose * zeroBlocks ρ.invSplit X * p.2 := by
  have h1 : invOp N ρ.invSplit * p.2 = p.2 * invOp N ρ.invSplit :=
    commute_of_parity (hρ.parity hinv _ (List.of_mem_zip hp).2)
  have h2 : p.2.conjTranspose * invOp N ρ.invSplit = invOp N ρ.invSplit * p.2.conjTranspose := by
    have := congrArg Matrix.conjTranspose h1
    simpa [Matrix.conjTranspose_mul, invOp_conjTranspose] using this
  have e1 : invOp N ρ.invSplit * (p.2.conjTranspose * X * p.2) * invOp N ρ.invSplit =
      p.2.conjTranspose * (invOp N ρ.invSplit * X * invOp N ρ.invSplit) * p.2 := by
    calc _ = (invOp N ρ.invSplit * p.2.conjTranspose) * X * (p.2 * invOp N ρ.invSplit) := by simp only [Matrix.mul_assoc]
      _ = _ := by rw [← h1, ← h2]; simp only [Matrix.mul_assoc]
  refine ⟨?_, ?_, ?_⟩
  · rw [flipBlocks_eq, flipBlocks_eq, e1]
  · rw [flipBlocks_eq, flipBlocks_eq]
    calc _ = (invOp N ρ.invSplit * p.2) * X * (p.2.conjTranspose * invOp N ρ.invSplit) := by simp only [Matrix.mul_assoc]
      _ = _ := by rw [h1, h2]; simp only [Matrix.mul_assoc]
  · rw [zeroBlocks_eq, zeroBlocks_eq, e1, Matrix.mul_smul, Matrix.smul_mul, Matrix.mul_add, Matrix.add_mul]

theorem flip_add (k : ℕ) (X Y : Mat F N) : flipBlocks k (X + Y) = flipBlocks k X + flipBlocks k Y := by
  simp only [flipBlocks_eq, Matrix.mul_add, Matrix.add_mul]

theorem flip_list_sum {α : Type} (k : ℕ) (l : List α) (f : α → Mat F N) :
    flipBlocks k (l.map f).sum = (l.map fun x => flipBlocks k (f x)).sum := by
  simp only [flipBlocks_eq, list_sum_mul]

theorem zero_list_sum {α : Type} (k : ℕ) (l : List α) (f : α → Mat F N) :
    zeroBlocks k (l.map f).sum = (l.map fun x => zeroBlocks k (f x)).sum := by
  induction l with
  | nil => ext i j; simp [zeroBlocks]
  | cons a l ih =>
    rw [List.map_cons, List.sum_cons, List.map_cons, List.sum_cons, ← ih]
    ext i j
    simp only [zeroBlocks, Matrix.add_apply]
    split_ifs <;> simp

/-- The function that `symmetrizer` prepares computes the group mean at each neighbour. -/
theorem symmetrizerFunc_eq (hρ : IsRep ρ) (hu : IsUnitary ρ) (hc : ρ.sym.Constructed) (hinv : ρ.sym.inversion = true)
    (hns : HalfList ns) (hcl : ClosedUpToSign ρ ns) (r0 : ℕ) (hr0 : r0 < ns.length) (hz : ns[r0] = 0)
    (H : List (Mat F N)) (hH : H.length = ns.length)
    (classes : List ℕ) (hclasses : classes = (classLoop 0 (rowsOf ρ.sym.S ns) ([], fun _ => false)).1) :
    symmetrizerFunc ρ.U ρ.invSplit ns.length r0
      ((tasksOf .mirrored (rowsOf ρ.sym.S ns)).filter fun t => decide (t.1 ∈ classes))
      ((tasksOf .normal (rowsOf ρ.sym.S ns)).filter fun t => decide (t.1 ∈ classes))
      (copies true ns.length classes (rowsOf ρ.sym.S ns)) (copies false ns.length classes (rowsOf ρ.sym.S ns)) H =
    .ok (ns.map fun r => (ρ.U.length : F)⁻¹ • gsum (ρ.sym.S.zip ρ.U) (val ρ.invSplit true ns H) r) := by
  have hg := pairGroup_of ρ hρ hu hc
  have hmem : ∀ i, i ∈ classes ↔ i < ns.length ∧ ∀ j < i, ¬ Linked ρ.sym.S ns j i := by
    intro i; rw [hclasses]; exact classes_mem ρ ns hc hns hcl i
  set G := fun i : ℕ => gsum (ρ.sym.S.zip ρ.U) (val ρ.invSplit true ns H) (ns.getD i 0) with hG
  set res0 : ℕ → Mat F N := fun x =>
      if x = r0 then zeroBlocks ρ.invSplit ((ρ.U.map fun u => u.conjTranspose * H.getD r0 0 * u).sum) else 0 with hres0
  set res1 := addAt ρ.U H ((tasksOf .mirrored (rowsOf ρ.sym.S ns)).filter fun t => decide (t.1 ∈ classes)) res0 with hres1
  set res3 := addAt ρ.U H ((tasksOf .normal (rowsOf ρ.sym.S ns)).filter fun t => decide (t.1 ∈ classes))
    (fun x => flipBlocks ρ.invSplit (res1 x)) with hres3
  -- the representatives
  have hrep : ∀ i ∈ classes, res3 i = G i := by
    intro i hi
    have hin := ((hmem i).1 hi).1
    have hget : ns.getD i 0 = ns[i] := by simp [List.getD, hin]
    rw [hres3, addAt_eq ρ.U H ρ.sym.S ns hρ.len .normal classes _ i hin hi]
    rw [hres1, addAt_eq ρ.U H ρ.sym.S ns hρ.len .mirrored classes _ i hin hi]
    rw [flip_add, flip_list_sum]
    simp only [hG]
    rw [hget]
    unfold gsum
    have hterm : ∀ p ∈ ρ.sym.S.zip ρ.U, p.1.mulVec ns[i] ∈ ns ∨ -(p.1.mulVec ns[i]) ∈ ns :=
      fun p hp => closed_pairs ρ ns hcl _ (List.getElem_mem hin) p hp
    by_cases hi0 : i = r0
    · subst hi0
      have hk : ∀ s : Mat K d, nkind ns (s.mulVec ns[i]) = .center := by
        intro s; rw [hz, Matrix.mulVec_zero]; simp [nkind]
      have hp0 : ∀ s : Mat K d, npos ns (s.mulVec ns[i]) = i := by
        intro s; rw [hz, Matrix.mulVec_zero, ← hz]; exact npos_self hns hin
      simp only [hk, hp0, reduceCtorEq, if_false, hres0, if_true]
      have hzz : ∀ l : List (Mat K d × Mat F N), (l.map fun _ => flipBlocks ρ.invSplit (0 : Mat F N)).sum = 0 := by
        intro l
        rw [flipBlocks_eq]
        simp
      have hzz' : ∀ l : List (Mat K d × Mat F N), (l.map fun _ => (0 : Mat F N)).sum = 0 := by
        intro l; simp
      rw [hzz, hzz', add_zero, add_zero, flip_zero]
      have hmap : (ρ.U.map fun u => u.conjTranspose * H.getD i 0 * u) =
          (ρ.sym.S.zip ρ.U).map fun p => p.2.conjTranspose * H.getD i 0 * p.2 := by
        conv_lhs => rw [← List.map_snd_zip (l₁ := ρ.sym.S) (l₂ := ρ.U) (by rw [hρ.len])]
        rw [List.map_map]
        rfl
      rw [hmap, zero_list_sum]
      congr 1
      refine List.map_congr_left fun p hp => ?_
      rw [(conj_flip ρ hρ hinv hp _).2.2, val_kind (hterm p hp), hk, hp0]
    · have hne : ns[i] ≠ 0 := by
        intro h; exact hi0 ((hns.nodup.getElem_inj_iff).1 (h.trans hz.symm))
      have hk : ∀ p ∈ ρ.sym.S.zip ρ.U, nkind ns (p.1.mulVec ns[i]) ≠ .center := by
        intro p hp h
        unfold nkind at h
        split_ifs at h with h1
        have hdet := hg.det _ hp
        have : p.1⁻¹.mulVec (p.1.mulVec ns[i]) = ns[i] := by
          rw [Matrix.mulVec_mulVec, Matrix.nonsing_inv_mul _ hdet, Matrix.one_mulVec]
        rw [h1, Matrix.mulVec_zero] at this
        exact hne this.symm
      have hz0 : flipBlocks ρ.invSplit (res0 i) = 0 := by
        simp only [hres0, if_neg hi0]
        rw [flipBlocks_eq]; simp
      rw [hz0, zero_add, ← List.sum_map_add]
      congr 1
      refine List.map_congr_left fun p hp => ?_
      have hkp := hk p hp
      rw [val_kind (hterm p hp)]
      cases hkd : nkind ns (p.1.mulVec ns[i]) with
      | center => exact absurd hkd hkp
      | mirrored =>
        simp only [reduceCtorEq, if_true, if_false, add_zero]
        exact (conj_flip ρ hρ hinv hp _).1
      | normal =>
        simp only [reduceCtorEq, if_true, if_false]
        have : flipBlocks ρ.invSplit (0 : Mat F N) = 0 := by rw [flipBlocks_eq]; simp
        rw [this, zero_add]
  -- the entries of the copy lists
  have hcopy : ∀ b : Bool, ∀ c ∈ copies b ns.length classes (rowsOf ρ.sym.S ns), c.1 ∈ classes ∧ c.2.1 ∉ classes ∧
      (if b then flipBlocks ρ.invSplit else id) (ρ.U.getD c.2.2 0 * G c.1 * (ρ.U.getD c.2.2 0).conjTranspose) = G c.2.1 := by
    intro b c hcm
    obtain ⟨h1, h2, h3⟩ := mem_copies.1 hcm
    have hin := ((hmem _).1 h1).1
    have hsome := (repClass_iff ρ ns hc hns hcl (x := c.2.1) hin).1 (by rw [h3]; rfl)
    refine ⟨h1, ?_, ?_⟩
    · intro hcx
      rcases Nat.lt_or_ge c.1 c.2.1 with hlt | hge
      · exact ((hmem _).1 hcx).2 _ hlt hsome.2
      · exact ((hmem _).1 h1).2 _ (by have := hsome.1; omega) (linked_symm ρ ns hρ hu hc hsome.2)
    · rw [rowsOf_getD _ _ _ hin] at h3
      obtain ⟨-, hm, h4⟩ := repClass_sound h3
      rw [List.getElem_map] at h4
      have hm' : c.2.2 < ρ.sym.S.length := by simpa using hm
      have hmU : c.2.2 < ρ.U.length := hρ.len ▸ hm'
      have hzip : (ρ.sym.S[c.2.2], ρ.U[c.2.2]) ∈ ρ.sym.S.zip ρ.U := by
        rw [List.mem_iff_getElem]
        exact ⟨c.2.2, by simp [hm', hmU], by simp⟩
      have hUget : ρ.U.getD c.2.2 0 = ρ.U[c.2.2] := by simp [List.getD, hmU]
      have hget : ns.getD c.1 0 = ns[c.1] := by simp [List.getD, hin]
      have hget' : ns.getD c.2.1 0 = ns[c.2.1] := by simp [List.getD, h2]
      have hcl1 := closed_pairs ρ ns hcl _ (List.getElem_mem hin) _ hzip
      simp only at hcl1
      have hcov : gsum (ρ.sym.S.zip ρ.U) (val ρ.invSplit true ns H) (ρ.sym.S[c.2.2].mulVec ns[c.1]) =
          ρ.U[c.2.2] * gsum (ρ.sym.S.zip ρ.U) (val ρ.invSplit true ns H) ns[c.1] * ρ.U[c.2.2].conjTranspose :=
        hg.sum_covariant (val ρ.invSplit true ns H) hzip ns[c.1]
      have hx : npos ns (ρ.sym.S[c.2.2].mulVec ns[c.1]) = c.2.1 := congrArg Prod.fst h4
      have hkd : nkind ns (ρ.sym.S[c.2.2].mulVec ns[c.1]) = if b then Kind.mirrored else Kind.normal := congrArg Prod.snd h4
      have hspec := npos_spec hcl1
      simp only [hx] at hspec
      simp only [hG]
      rw [hUget, hget, hget', ← hcov]
      rcases hspec with ⟨hin', hsp⟩ | ⟨hnin, hsp⟩
      · have hb : b = false := by
          cases b with
          | false => rfl
          | true =>
            exfalso
            simp only [if_true] at hkd
            unfold nkind at hkd
            rw [if_pos hin'] at hkd
            split_ifs at hkd
        subst hb
        rw [hsp]
        simp
      · have hb : b = true := by
          cases b with
          | true => rfl
          | false =>
            exfalso
            simp only [Bool.false_eq_true, if_false] at hkd
            unfold nkind at hkd
            rw [if_neg hnin] at hkd
            split_ifs at hkd
        subst hb
        rw [hsp, gsum_flip ρ hρ hinv ns hns hcl H hcl1]
        simp
  set res4 := copyTo ρ.U (flipBlocks ρ.invSplit) (copies true ns.length classes (rowsOf ρ.sym.S ns)) res3 with hres4
  have h4 : ∀ i ∈ classes, res4 i = G i := by
    intro i hi
    rw [hres4, copyTo_none, hrep i hi]
    intro c hcm he
    exact (hcopy true c hcm).2.1 (he ▸ hi)
  have h5 : ∀ x < ns.length, copyTo ρ.U id (copies false ns.length classes (rowsOf ρ.sym.S ns)) res4 x = G x := by
    intro x hx
    refine copyTo_some ?_ ?_
    · intro c hcm he
      have := hcopy false c hcm
      rw [h4 _ this.1, ← he]
      simpa using this.2.2
    · by_cases hxc : x ∈ classes
      · exact Or.inl (h4 x hxc)
      · -- the representative of the class
        have hex : ∃ i, Linked ρ.sym.S ns i x := by
          rw [hmem] at hxc
          push Not at hxc
          obtain ⟨j, -, hj⟩ := hxc hx
          exact ⟨j, hj⟩
        classical
        have hi := Nat.find_spec hex
        set i := Nat.find hex with hidef
        have hin : i < ns.length := by obtain ⟨_, _, h, _⟩ := hi; exact h
        have hic : i ∈ classes := by
          rw [hmem]
          exact ⟨hin, fun j hj hl => Nat.find_min hex hj (linked_trans ρ ns hρ hl hi)⟩
        have hne : x ≠ i := fun h => hxc (h ▸ hic)
        have hs := (repClass_iff ρ ns hc hns hcl (x := x) hin).2 ⟨hne, hi⟩
        obtain ⟨⟨m, b⟩, hmb⟩ := Option.isSome_iff_exists.1 hs
        have hcm : (i, x, m) ∈ copies b ns.length classes (rowsOf ρ.sym.S ns) := mem_copies.2 ⟨hic, hx, hmb⟩
        cases b with
        | false => exact Or.inr ⟨_, hcm, rfl⟩
        | true =>
          left
          rw [hres4]
          refine copyTo_some ?_ (Or.inr ⟨_, hcm, rfl⟩)
          intro c hcm he
          have := hcopy true c hcm
          rw [hrep _ this.1, ← he]
          simpa using this.2.2
  unfold symmetrizerFunc
  rw [if_neg (by simp [hH])]
  simp only
  congr 1
  refine List.ext_getElem (by simp) fun x hx1 hx2 => ?_
  have hx : x < ns.length := by simpa using hx1
  rw [List.getElem_map, List.getElem_map, List.getElem_range]
  have := h5 x hx
  simp only [hG] at this
  rw [show ns.getD x 0 = ns[x] by simp [List.getD, hx]] at this
  rw [← this]

end

/-- What the preparation does for a closed list of neighbours. -/
theorem symmetrizer_closed (ρ : Rep K F d N) (hρ : IsRep ρ) (hc : ρ.sym.Constructed) (hinv : ρ.sym.inversion = true)
    (hU : 2 ≤ ρ.U.length) (ns : List (Fin d → K)) (hns : HalfList ns) (hcl : ClosedUpToSign ρ ns) :
    ((0 ∈ ns ∧ ∃ r ∈ ns, r ≠ 0 ∧ ∃ s ∈ ρ.sym.S, -s.mulVec r ∈ ns) ∧ ∃ (r0 : ℕ) (hr0 : r0 < ns.length), ns[r0] = 0 ∧
      ρ.symmetrizer ns = .ok (symmetrizerFunc ρ.U ρ.invSplit ns.length r0
        ((tasksOf .mirrored (rowsOf ρ.sym.S ns)).filter fun t =>
          decide (t.1 ∈ (classLoop 0 (rowsOf ρ.sym.S ns) ([], fun _ => false)).1))
        ((tasksOf .normal (rowsOf ρ.sym.S ns)).filter fun t =>
          decide (t.1 ∈ (classLoop 0 (rowsOf ρ.sym.S ns) ([], fun _ => false)).1))
        (copies true ns.length (classLoop 0 (rowsOf ρ.sym.S ns) ([], fun _ => false)).1 (rowsOf ρ.sym.S ns))
        (copies false ns.length (classLoop 0 (rowsOf ρ.sym.S ns) ([], fun _ => false)).1 (rowsOf ρ.sym.S ns)))) ∨
    (¬ (0 ∈ ns ∧ ∃ r ∈ ns, r ≠ 0 ∧ ∃ s ∈ ρ.sym.S, -s.mulVec r ∈ ns) ∧ ρ.symmetrizer ns = .error .indexError) := by
  have hone : (1 : Mat K d) ∈ ρ.sym.S := (List.of_mem_zip hρ.one).1
  have hz0 : ∀ s ∈ ρ.sym.S, ∀ r : Fin d → K, s.mulVec r = 0 → r = 0 := by
    intro s hs r h
    have hdet := isUnit_det_of_abs (hc.det _ hs)
    have : s⁻¹.mulVec (s.mulVec r) = r := by
      rw [Matrix.mulVec_mulVec, Matrix.nonsing_inv_mul _ hdet, Matrix.one_mulVec]
    rw [← this, h, Matrix.mulVec_zero]
  have hkind0 : ∀ x : Fin d → K, nkind ns x = .center ↔ x = 0 := by
    intro x; unfold nkind
    by_cases h0 : x = 0
    · simp [h0]
    · rw [if_neg h0]
      constructor
      · intro h; split_ifs at h
      · intro h; exact absurd h h0
  -- the task lists
  have htask : ∀ (kd : Kind) (t : ℕ × ℕ × ℕ), t ∈ tasksOf kd (rowsOf ρ.sym.S ns) → ∃ (hi : t.1 < ns.length) (s : Mat K d),
      s ∈ ρ.sym.S ∧ npos ns (s.mulVec ns[t.1]) = t.2.1 ∧ nkind ns (s.mulVec ns[t.1]) = kd := by
    intro kd t ht
    obtain ⟨hi, hm, he⟩ := mem_tasksOf.1 ht
    have hi' : t.1 < ns.length := by rw [rowsOf_length] at hi; exact hi
    simp only [rowsOf_get ρ.sym.S ns t.1 hi'] at hm he
    rw [List.getElem_map] at he
    exact ⟨hi', _, List.getElem_mem _, congrArg Prod.fst he, congrArg Prod.snd he⟩
  have htask' : ∀ (kd : Kind) (i : ℕ) (hi : i < ns.length) (s : Mat K d), s ∈ ρ.sym.S → nkind ns (s.mulVec ns[i]) = kd →
      tasksOf kd (rowsOf ρ.sym.S ns) ≠ [] := by
    intro kd i hi s hs hk
    obtain ⟨m, hm, rfl⟩ := List.getElem_of_mem hs
    refine List.ne_nil_of_mem (a := (i, npos ns (ρ.sym.S[m].mulVec ns[i]), m)) (mem_tasksOf.2 ⟨by rw [rowsOf_length]; exact hi, ?_⟩)
    simp only [rowsOf_get ρ.sym.S ns i hi]
    exact ⟨by simpa using hm, by rw [List.getElem_map, hk]⟩
  have hcenter : tasksOf .center (rowsOf ρ.sym.S ns) ≠ [] ↔ 0 ∈ ns := by
    constructor
    · intro h
      obtain ⟨t, ht⟩ := List.exists_mem_of_ne_nil _ h
      obtain ⟨hi, s, hs, -, hk⟩ := htask _ t ht
      have := hz0 s hs _ ((hkind0 _).1 hk)
      exact this ▸ List.getElem_mem hi
    · intro h
      obtain ⟨i, hi, he⟩ := List.getElem_of_mem h
      refine htask' .center i hi 1 hone ?_
      rw [he, Matrix.mulVec_zero, hkind0]
  have hmirror : tasksOf .mirrored (rowsOf ρ.sym.S ns) ≠ [] ↔ ∃ r ∈ ns, r ≠ 0 ∧ ∃ s ∈ ρ.sym.S, -s.mulVec r ∈ ns := by
    constructor
    · intro h
      obtain ⟨t, ht⟩ := List.exists_mem_of_ne_nil _ h
      obtain ⟨hi, s, hs, -, hk⟩ := htask _ t ht
      have hk' : s.mulVec ns[t.1] ≠ 0 ∧ s.mulVec ns[t.1] ∉ ns := by
        unfold nkind at hk
        split_ifs at hk with h1 h2
        exact ⟨h1, h2⟩
      refine ⟨_, List.getElem_mem hi, fun h0 => hk'.1 (by rw [h0, Matrix.mulVec_zero]), s, hs, ?_⟩
      exact (hcl _ (List.getElem_mem hi) s hs).resolve_left hk'.2
    · rintro ⟨r, hr, h0, s, hs, hm⟩
      obtain ⟨i, hi, rfl⟩ := List.getElem_of_mem hr
      refine htask' .mirrored i hi s hs ?_
      have h1 : s.mulVec ns[i] ≠ 0 := fun h => h0 (hz0 s hs _ h)
      have h2 : s.mulVec ns[i] ∉ ns := fun h => h1 (hns.half _ h hm)
      simp [nkind, h1, h2]
  have hnormal : (∃ r ∈ ns, r ≠ 0 ∧ ∃ s ∈ ρ.sym.S, -s.mulVec r ∈ ns) → tasksOf .normal (rowsOf ρ.sym.S ns) ≠ [] := by
    rintro ⟨r, hr, h0, -⟩
    obtain ⟨i, hi, rfl⟩ := List.getElem_of_mem hr
    refine htask' .normal i hi 1 hone ?_
    rw [Matrix.one_mulVec]
    simp [nkind, h0]
  have hpre : ρ.symmetrizer ns = match tasksOf .center (rowsOf ρ.sym.S ns) with
        | [] => .error .indexError
        | (r0, _, _) :: _ =>
          if (tasksOf .center (rowsOf ρ.sym.S ns)).any (fun t => decide (t.1 ≠ t.2.1)) ||
            (tasksOf .center (rowsOf ρ.sym.S ns)).any (fun t => decide (t.1 ≠ r0)) then .error .assertionError
          else if (tasksOf .mirrored (rowsOf ρ.sym.S ns)).isEmpty || (tasksOf .normal (rowsOf ρ.sym.S ns)).isEmpty then
            .error .indexError
          else
            .ok (symmetrizerFunc ρ.U ρ.invSplit ns.length r0
              ((tasksOf .mirrored (rowsOf ρ.sym.S ns)).filter fun t =>
                decide (t.1 ∈ (classLoop 0 (rowsOf ρ.sym.S ns) ([], fun _ => false)).1))
              ((tasksOf .normal (rowsOf ρ.sym.S ns)).filter fun t =>
                decide (t.1 ∈ (classLoop 0 (rowsOf ρ.sym.S ns) ([], fun _ => false)).1))
              (copies true ns.length (classLoop 0 (rowsOf ρ.sym.S ns) ([], fun _ => false)).1 (rowsOf ρ.sym.S ns))
              (copies false ns.length (classLoop 0 (rowsOf ρ.sym.S ns) ([], fun _ => false)).1 (rowsOf ρ.sym.S ns))) := by
    unfold Rep.symmetrizer
    rw [if_neg (by omega), if_neg (by simp [hρ.len]), hinv, rows_ok ρ ns hcl]
    simp only
    rw [if_neg]
    · rfl
    · simp only [List.any_eq_true, List.mem_range, decide_eq_true_eq, not_exists, not_and, not_not]
      exact fun j hj => target_count ρ hc ns hns hcl j hj
  by_cases h0 : (0 : Fin d → K) ∈ ns
  · have hall : ∀ t ∈ tasksOf .center (rowsOf ρ.sym.S ns), t.1 = ns.idxOf 0 ∧ t.2.1 = ns.idxOf 0 := by
      intro t ht
      obtain ⟨hi, s, hs, hp, hk⟩ := htask _ t ht
      have hx := (hkind0 _).1 hk
      have hr := hz0 s hs _ hx
      refine ⟨?_, ?_⟩
      · have h5 := hns.nodup.idxOf_getElem t.1 hi
        rw [hr] at h5
        exact h5.symm
      · rw [← hp, hx]
        unfold npos
        rw [if_pos h0]
    cases ht0 : tasksOf .center (rowsOf ρ.sym.S ns) with
    | nil => exact absurd ht0 (hcenter.2 h0)
    | cons t ts =>
      rw [hpre]
      rw [ht0] at hall ⊢
      obtain ⟨r0, j0, m0⟩ := t
      simp only
      have hr0 : r0 = ns.idxOf 0 := (hall (r0, j0, m0) (by simp)).1
      have hno : ¬ ((((r0, j0, m0) :: ts).any (fun t => decide (t.1 ≠ t.2.1)) || ((r0, j0, m0) :: ts).any (fun t => decide (t.1 ≠ r0))) = true) := by
        simp only [Bool.or_eq_true, List.any_eq_true, decide_eq_true_eq, not_or, not_exists, not_and, not_not]
        exact ⟨fun t ht => by rw [(hall t ht).1, (hall t ht).2], fun t ht => by rw [(hall t ht).1, hr0]⟩
      rw [if_neg hno]
      have hlt : r0 < ns.length := hr0 ▸ List.idxOf_lt_length_of_mem h0
      have hget : ns[r0] = 0 := by subst hr0; exact List.getElem_idxOf _
      by_cases hm : ∃ r ∈ ns, r ≠ 0 ∧ ∃ s ∈ ρ.sym.S, -s.mulVec r ∈ ns
      · left
        refine ⟨⟨h0, hm⟩, r0, hlt, hget, ?_⟩
        rw [if_neg]
        simp only [Bool.or_eq_true, List.isEmpty_iff, not_or]
        exact ⟨hmirror.2 hm, hnormal hm⟩
      · right
        refine ⟨fun h => hm h.2, ?_⟩
        rw [if_pos]
        simp only [Bool.or_eq_true, List.isEmpty_iff]
        left
        by_contra hne
        exact hm (hmirror.1 hne)
  · right
    refine ⟨fun h => h0 h.1, ?_⟩
    have : tasksOf .center (rowsOf ρ.sym.S ns) = [] := by
      by_contra hne
      exact h0 (hcenter.1 hne)
    rw [hpre, this]

/-- Without inversion nothing is prepared. -/
theorem symmetrizer_noinv (ρ : Rep K F d N) (hinv : ρ.sym.inversion = false)
    (hU : 2 ≤ ρ.U.length) (ns : List (Fin d → K)) : ∃ e, ρ.symmetrizer ns = .error e := by
  unfold Rep.symmetrizer
  rw [if_neg (by omega)]
  split_ifs with h1
  · exact ⟨_, rfl⟩
  · rw [hinv]
    cases hr : ns.mapM (taskRow false ρ.sym.S ns) with
    | error e => exact ⟨e, rfl⟩
    | ok rows =>
      simp only
      by_cases h2 : ((List.range ns.length).any fun j =>
          decide (List.count j (List.map Prod.fst rows.flatten) ≠ ρ.sym.S.length)) = true
      · rw [if_pos h2]; exact ⟨_, rfl⟩
      · rw [if_neg h2]
        have hmapM : ∀ {α β : Type} (f : α → Except Err β) (l : List α) (r : List β), l.mapM f = .ok r →
            ∀ y ∈ r, ∃ x ∈ l, f x = .ok y := by
          intro α β f l
          induction l with
          | nil => intro r h; simp at h; cases h; simp
          | cons a l ih =>
            intro r h
            rw [List.mapM_cons] at h
            cases ha : f a with
            | error e => rw [ha] at h; cases h
            | ok b =>
              cases hl : l.mapM f with
              | error e => rw [ha, hl] at h; cases h
              | ok bs =>
                rw [ha, hl] at h
                cases h
                intro y hy
                rcases List.mem_cons.1 hy with rfl | hy
                · exact ⟨a, by simp, ha⟩
                · obtain ⟨x, hx, hxy⟩ := ih bs hl y hy
                  exact ⟨x, by simp [hx], hxy⟩
        have hno : tasksOf .center rows = [] := by
          by_contra hne
          obtain ⟨t, ht⟩ := List.exists_mem_of_ne_nil _ hne
          obtain ⟨hi, hm, he⟩ := mem_tasksOf.1 ht
          obtain ⟨r, -, hr'⟩ := hmapM _ _ _ hr _ (List.getElem_mem hi)
          obtain ⟨s, -, hs⟩ := hmapM _ _ _ hr' _ (List.getElem_mem hm)
          rw [he] at hs
          unfold classify at hs
          cases hn : neighbor ns (s.mulVec r) with
          | error e => rw [hn] at hs; cases hs
          | ok jm =>
            obtain ⟨j, mm⟩ := jm
            rw [hn] at hs
            cases mm <;> simp at hs
        rw [hno]
        exact ⟨_, rfl⟩

theorem symmetrizer_not_closed (ρ : Rep K F d N) (hρ : IsRep ρ) (hinv : ρ.sym.inversion = true)
    (hU : 2 ≤ ρ.U.length) (ns : List (Fin d → K)) (hcl : ¬ ClosedUpToSign ρ ns) :
    ρ.symmetrizer ns = .error .valueError := by
  unfold Rep.symmetrizer
  rw [if_neg (by omega), if_neg (by simp [hρ.len]), hinv]
  have hcls : ∀ (r : Fin d → K) (s : Mat K d) (e : Err), classify true ns (s.mulVec r) = .error e → e = .valueError := by
    intro r s e he
    by_cases h : s.mulVec r ∈ ns ∨ -(s.mulVec r) ∈ ns
    · rw [classify_ok h] at he; cases he
    · rw [classify_error h] at he; exact (Except.error.inj he).symm
  have hcls' : ∀ (r : Fin d → K) (s : Mat K d), (∃ y, classify true ns (s.mulVec r) = .ok y) →
      s.mulVec r ∈ ns ∨ -(s.mulVec r) ∈ ns := by
    rintro r s ⟨y, hy⟩
    by_contra h
    rw [classify_error h] at hy
    cases hy
  unfold ClosedUpToSign at hcl
  push Not at hcl
  obtain ⟨r, hr, s, hs, h1, h2⟩ := hcl
  have hrow : ∀ r, (∃ s ∈ ρ.sym.S, ¬ (s.mulVec r ∈ ns ∨ -(s.mulVec r) ∈ ns)) → taskRow true ρ.sym.S ns r = .error .valueError := by
    rintro r ⟨s, hs, h⟩
    exact mapM_error (fun s _ e he => hcls r s e he) ⟨s, hs, fun y hy => h (hcls' r s ⟨y, hy⟩)⟩
  have : ns.mapM (taskRow true ρ.sym.S ns) = .error .valueError := by
    refine mapM_error (fun r _ e he => ?_) ⟨r, hr, fun y hy => ?_⟩
    · by_cases h : ∃ s ∈ ρ.sym.S, ¬ (s.mulVec r ∈ ns ∨ -(s.mulVec r) ∈ ns)
      · rw [hrow r h] at he; exact (Except.error.inj he).symm
      · push Not at h
        have := mapM_ok (f := fun s => classify true ns (s.mulVec r)) (fun s hs => classify_ok (h s hs))
        unfold taskRow at he
        rw [this] at he
        cases he
    · rw [hrow r ⟨s, hs, by tauto⟩] at hy
      cases hy
  rw [this]

/-- **C86** Whenever `symmetrizer(neighbors)` returns a function, this function and `symmetrize` agree on every input: same
matrices, same exceptions. -/
theorem C86_equal [CharZero F] (ρ : Rep K F d N) (hρ : IsRep ρ) (hu : IsUnitary ρ) (hc : ρ.sym.Constructed)
    (ns : List (Fin d → K)) (hns : HalfList ns) (f : List (Mat F N) → Except Err (List (Mat F N)))
    (h : ρ.symmetrizer ns = .ok f) : ∀ H, f H = ρ.symmetrize ns H := by
  intro H
  by_cases hU : ρ.U.length ≤ 1
  · unfold Rep.symmetrizer at h
    rw [if_pos hU] at h
    obtain rfl := Except.ok.inj h
    unfold Rep.symmetrize
    rw [if_pos hU]
  have hU : 2 ≤ ρ.U.length := by omega
  by_cases hinv : ρ.sym.inversion = true
  swap
  · obtain ⟨e, he⟩ := symmetrizer_noinv ρ (by simpa using hinv) hU ns
    rw [he] at h
    cases h
  have hcl : ClosedUpToSign ρ ns := by
    by_contra hcl
    rw [symmetrizer_not_closed ρ hρ hinv hU ns hcl] at h
    cases h
  rcases symmetrizer_closed ρ hρ hc hinv hU ns hns hcl with ⟨-, r0, hr0, hz, he⟩ | ⟨-, he⟩
  swap
  · rw [he] at h; cases h
  rw [he] at h
  obtain rfl := Except.ok.inj h
  by_cases hH : H.length = ns.length
  · rw [symmetrizerFunc_eq ρ ns hρ hu hc hinv hns hcl r0 hr0 hz H hH _ rfl, symmetrize_eq ρ ns H hρ.len hU hH hcl, hinv]
  · unfold symmetrizerFunc Rep.symmetrize
    rw [if_pos (Ne.symm hH), if_neg (by omega), if_pos (by simpa using Ne.symm hH)]

/-- The half turn maps the second neighbour to its negative; the prepared function exists and computes the mean. -/
example : ∃ f R, exRep.symmetrizer [![0, 0, 0], ![1, 0, 0]] = .ok f ∧ f [!![1, 2; 3, 4], !![5, 6; 7, 8]] = .ok R ∧
    decide (R = [!![1, 0; 0, 4], !![5, 6; 7, 8]]) = true := by
  obtain ⟨f, hf, h⟩ := okAnd_iff.1 (show okAnd (exRep.symmetrizer [![0, 0, 0], ![1, 0, 0]]) (fun f =>
    okAnd (f [!![1, 2; 3, 4], !![5, 6; 7, 8]]) fun R => decide (R = [!![1, 0; 0, 4], !![5, 6; 7, 8]])) = true by decide +kernel)
  obtain ⟨R, hR, h⟩ := okAnd_iff.1 h
  exact ⟨f, R, hf, hR, h⟩

/-- **C86** `symmetrizer(neighbors)` returns a function exactly if the representation has at most one matrix, or the symmetry has
the inversion, the neighbours are mapped to neighbours or negatives of neighbours, the zero vector is among them, and some
other neighbour is mapped to the negative of a neighbour.  In the other cases `symmetrize` may well work. -/
theorem C86_returns (ρ : Rep K F d N) (hρ : IsRep ρ) (hc : ρ.sym.Constructed)
    (ns : List (Fin d → K)) (hns : HalfList ns) :
    (∃ f, ρ.symmetrizer ns = .ok f) ↔ ρ.U.length ≤ 1 ∨ (ρ.sym.inversion = true ∧ ClosedUpToSign ρ ns ∧ 0 ∈ ns ∧
      ∃ r ∈ ns, r ≠ 0 ∧ ∃ s ∈ ρ.sym.S, -s.mulVec r ∈ ns) := by
  by_cases hU : ρ.U.length ≤ 1
  · unfold Rep.symmetrizer
    rw [if_pos hU]
    simp [hU]
  have hU' : 2 ≤ ρ.U.length := by omega
  by_cases hinv : ρ.sym.inversion = true
  swap
  · obtain ⟨e, he⟩ := symmetrizer_noinv ρ (by simpa using hinv) hU' ns
    rw [he]
    simp [hU, hinv]
  by_cases hcl : ClosedUpToSign ρ ns
  swap
  · rw [symmetrizer_not_closed ρ hρ hinv hU' ns hcl]
    simp [hU, hcl]
  rcases symmetrizer_closed ρ hρ hc hinv hU' ns hns hcl with ⟨h, r0, hr0, hz, he⟩ | ⟨h, he⟩
  · rw [he]
    exact ⟨fun _ => Or.inr ⟨hinv, hcl, h⟩, fun _ => ⟨_, rfl⟩⟩
  · rw [he]
    constructor
    · rintro ⟨f, hf⟩; cases hf
    · rintro (h' | h')
      · exact absurd h' hU
      · exact absurd h'.2.2 h

/-- **C86** (disagreement) `symmetrize` works where `symmetrizer` raises: without the zero vector, without a mirrored
image, and for every symmetry without inversion. -/
theorem C86_defect :
    exRep.symmetrizer [![1, 0, 0]] = .error .indexError ∧ (∃ R, exRep.symmetrize [![1, 0, 0]] [!![5, 6; 7, 8]] = .ok R) ∧
    exRep.symmetrizer [![0, 0, 0], ![0, 0, 1]] = .error .indexError ∧
      (∃ R, exRep.symmetrize [![0, 0, 0], ![0, 0, 1]] [!![1, 2; 3, 4], !![5, 6; 7, 8]] = .ok R) ∧
    exRepN.symmetrizer [![0, 0, 0], ![0, 0, 1]] = .error .indexError ∧
      (∃ R, exRepN.symmetrize [![0, 0, 0], ![0, 0, 1]] [!![1, 2; 3, 4], !![5, 6; 7, 8]] = .ok R) := by
  have key : ∀ {α : Type} (x : Except Err α), (match x with | .ok _ => true | .error _ => false) = true → ∃ R, x = .ok R := by
    intro α x h; cases x with
    | ok y => exact ⟨y, rfl⟩
    | error e => cases h
  have key' : ∀ {α : Type} (x : Except Err α), (match x with | .ok _ => false | .error e => decide (e = .indexError)) = true →
      x = .error .indexError := by
    intro α x h; cases x with
    | ok y => cases h
    | error e => rw [of_decide_eq_true h]
  exact ⟨key' _ (by decide +kernel), key _ (by decide +kernel), key' _ (by decide +kernel), key _ (by decide +kernel),
    key' _ (by decide +kernel), key _ (by decide +kernel)⟩

/-- **C86** The exceptions for symmetries with inversion: `ValueError` if the neighbours are not closed, else `IndexError`. -/
theorem C86_errors (ρ : Rep K F d N) (hρ : IsRep ρ) (hc : ρ.sym.Constructed) (hinv : ρ.sym.inversion = true)
    (ns : List (Fin d → K)) (hns : HalfList ns) (e : Err) (h : ρ.symmetrizer ns = .error e) :
    e = if (∀ r ∈ ns, ∀ s ∈ ρ.sym.S, s.mulVec r ∈ ns ∨ -s.mulVec r ∈ ns) then .indexError else .valueError := by
  have hU : 2 ≤ ρ.U.length := by
    by_contra hU
    unfold Rep.symmetrizer at h
    rw [if_pos (by omega)] at h
    cases h
  by_cases hcl : ClosedUpToSign ρ ns
  · rw [if_pos (show ∀ r ∈ ns, ∀ s ∈ ρ.sym.S, s.mulVec r ∈ ns ∨ -s.mulVec r ∈ ns from hcl)]
    rcases symmetrizer_closed ρ hρ hc hinv hU ns hns hcl with ⟨-, r0, hr0, hz, he⟩ | ⟨-, he⟩
    · rw [he] at h; cases h
    · rw [he] at h; exact (Except.error.inj h).symm
  · rw [if_neg (show ¬ ∀ r ∈ ns, ∀ s ∈ ρ.sym.S, s.mulVec r ∈ ns ∨ -s.mulVec r ∈ ns from hcl)]
    rw [symmetrizer_not_closed ρ hρ hinv hU ns hcl] at h
    exact (Except.error.inj h).symm

theorem mapM_first {α β : Type} {f : α → Except Err β} {e : Err} (l₁ : List α) (x : α) (l₂ : List α)
    (h₁ : ∀ a ∈ l₁, ∃ b, f a = .ok b) (hx : f x = .error e) : (l₁ ++ x :: l₂).mapM f = .error e := by
  induction l₁ with
  | nil => rw [List.nil_append, List.mapM_cons, hx]; rfl
  | cons a l ih =>
    obtain ⟨b, hb⟩ := h₁ a (by simp)
    rw [List.cons_append, List.mapM_cons, hb]
    show (do let y ← (l ++ x :: l₂).mapM f; pure (b :: y)) = _
    rw [ih fun a ha => h₁ a (by simp [ha])]
    rfl

theorem classify_noinv {ns : List (Fin d → K)} {x : Fin d → K} (h : x ∈ ns) : classify false ns x = .ok (npos ns x, .normal) := by
  simp [classify, neighbor, npos, h]

/-- **C86** The exceptions for symmetries without inversion.  Without inversion `symmetrizer` never returns: if all images of
neighbours are neighbours it raises `IndexError`; otherwise the first image that is not a neighbour decides: `AssertionError` if its
negative is a neighbour, else `ValueError`. -/
theorem C86_errors_no_inversion (ρ : Rep K F d N) (hρ : IsRep ρ) (hc : ρ.sym.Constructed) (hinv : ρ.sym.inversion = false)
    (hU : 2 ≤ ρ.U.length) (ns : List (Fin d → K)) (hns : HalfList ns) :
    ((∀ r ∈ ns, ∀ s ∈ ρ.sym.S, s.mulVec r ∈ ns) → ρ.symmetrizer ns = .error .indexError) ∧
    ∀ (l₁ l₂ : List (Fin d → K)) (r : Fin d → K) (S₁ S₂ : List (Mat K d)) (s : Mat K d), ns = l₁ ++ r :: l₂ → ρ.sym.S = S₁ ++ s :: S₂ →
      (∀ r' ∈ l₁, ∀ s' ∈ ρ.sym.S, s'.mulVec r' ∈ ns) → (∀ s' ∈ S₁, s'.mulVec r ∈ ns) → s.mulVec r ∉ ns →
      ρ.symmetrizer ns = .error (if -s.mulVec r ∈ ns then .assertionError else .valueError) := by
  constructor
  · intro hcl
    have hrows : ns.mapM (taskRow false ρ.sym.S ns) =
        .ok (ns.map fun r => ρ.sym.S.map fun s => (npos ns (s.mulVec r), Kind.normal)) :=
      mapM_ok fun r hr => mapM_ok fun s hs => classify_noinv (hcl r hr s hs)
    have hfst : ((ns.map fun r => ρ.sym.S.map fun s => (npos ns (s.mulVec r), Kind.normal)).flatten.map Prod.fst) =
        (rowsOf ρ.sym.S ns).flatten.map Prod.fst := by
      unfold rowsOf
      rw [List.map_flatten, List.map_flatten, List.map_map, List.map_map]
      congr 1
      refine List.map_congr_left fun r _ => ?_
      simp only [Function.comp_apply, List.map_map]
      rfl
    have hno : tasksOf .center (ns.map fun r => ρ.sym.S.map fun s => (npos ns (s.mulVec r), Kind.normal)) = [] := by
      by_contra hne
      obtain ⟨t, ht⟩ := List.exists_mem_of_ne_nil _ hne
      obtain ⟨hi, hm, he⟩ := mem_tasksOf.1 ht
      have h2 := congrArg Prod.snd he
      simp at h2
    unfold Rep.symmetrizer
    rw [if_neg (by omega), if_neg (by simp [hρ.len]), hinv, hrows]
    simp only
    rw [if_neg]
    · rw [hno]
    · rw [hfst]
      simp only [List.any_eq_true, List.mem_range, decide_eq_true_eq, not_exists, not_and, not_not]
      exact fun j hj => target_count ρ hc ns hns (fun r hr s hs => Or.inl (hcl r hr s hs)) j hj
  · intro l₁ l₂ r S₁ S₂ s hn hS h1 h2 h3
    have hcls : classify false ns (s.mulVec r) = .error (if -s.mulVec r ∈ ns then .assertionError else .valueError) := by
      unfold classify neighbor
      rw [if_neg h3]
      by_cases h4 : -s.mulVec r ∈ ns
      · rw [if_pos h4, if_pos h4]
        simp
      · rw [if_neg h4, if_neg h4]
    have hrow : taskRow false ρ.sym.S ns r = .error (if -s.mulVec r ∈ ns then .assertionError else .valueError) := by
      unfold taskRow
      rw [hS]
      exact mapM_first S₁ s S₂ (fun s' hs' => ⟨_, classify_noinv (h2 s' hs')⟩) hcls
    have hall : ns.mapM (taskRow false ρ.sym.S ns) = .error (if -s.mulVec r ∈ ns then .assertionError else .valueError) := by
      have := mapM_first (f := taskRow false ρ.sym.S ns) l₁ r l₂ (fun r' hr' => ⟨_, mapM_ok fun s' hs' => classify_noinv (h1 r' hr' s' hs')⟩) hrow
      rwa [← hn] at this
    unfold Rep.symmetrizer
    rw [if_neg (by omega), if_neg (by simp [hρ.len]), hinv, hall]

/-- The half turn maps `(1, 0, 0)` to its negative: without inversion this raises `AssertionError`. -/
example : exRepN.symmetrizer [![0, 0, 0], ![1, 0, 0]] = .error .assertionError := by
  rw [(C86_errors_no_inversion exRepN exRepN_isRep ⟨[1, rz2], false, by decide +kernel⟩ rfl (by decide +kernel)
    [![0, 0, 0], ![1, 0, 0]] ⟨by decide +kernel, by decide +kernel⟩).2 [![0, 0, 0]] [] ![1, 0, 0] [1] [] rz2 rfl rfl
    (by decide +kernel) (by decide +kernel) (by decide +kernel), if_pos (by decide +kernel)]

end TB.UR
