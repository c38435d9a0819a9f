import Verif.Lemmas.SymmetryDiv

/-!
# Properties C19, C53, C54: division, subgroup test, subgroups
-/

set_option linter.unusedSectionVars false

namespace TB
open Spec

variable {K : Type} [Field K] [LinearOrder K] [IsStrictOrderedRing K] {d : ℕ}

theorem ops_closed {τ : Sym K d} (h : ∀ a ∈ τ.S, ∀ b ∈ τ.S, a * b ∈ τ.S) :
    ∀ a ∈ τ.ops, ∀ b ∈ τ.ops, a * b ∈ τ.ops := by
  simp only [mem_ops]
  rintro a (ha | ⟨hi, ha⟩) b (hb | ⟨hi', hb⟩)
  · exact Or.inl (h _ ha _ hb)
  · right; refine ⟨hi', ?_⟩; have := h _ ha _ hb; rwa [mul_neg] at this
  · right; refine ⟨hi, ?_⟩; have := h _ ha _ hb; rwa [neg_mul] at this
  · left; have := h _ ha _ hb; rwa [neg_mul_neg] at this

theorem classes_divInv {σ : Sym K d} {H : List (Mat K d)} (hG : IsMatGroup σ.ops) (hH : IsMatGroup H) :
    DivInv σ.ops H (σ.equivalenceClasses (leftRel H)) ∧
    (σ.equivalenceClasses (leftRel H)).flatten.Perm σ.ops ∧ [] ∉ σ.equivalenceClasses (leftRel H) := by
  obtain ⟨e1, e2, e3⟩ := leftRel_equiv hG hH
  have hl : ∀ a b : Mat K d, leftRel H a b = true ↔ a⁻¹ * b ∈ H := by
    intro a b; unfold leftRel; simp [minv_eq]
  obtain ⟨h1, h2, h3, h4⟩ := C13_equivalence_classes σ (leftRel H) e1 e2 e3
  refine ⟨⟨?_, ?_, ?_, ?_⟩, h1, h2⟩
  · intro c hc a ha
    exact h1.mem_iff.1 (List.mem_flatten.2 ⟨c, hc, ha⟩)
  · intro c hc a ha b hb
    exact (hl a b).1 (h3 c hc a ha b hb)
  · refine h4.imp ?_
    intro c c' h a ha b hb hab
    have := h a ha b hb
    rw [(hl a b).2 hab] at this
    simp at this
  · intro g hg
    obtain ⟨c, hc, hgc⟩ := List.mem_flatten.1 (h1.mem_iff.2 hg)
    exact ⟨c, hc, fun a ha => (hl a g).1 (h3 c hc a ha g hgc)⟩

/-- **C19** If `sym / sub` returns, for a subgroup `sub` without inversion flag, then the result is a group of
operations of `sym`, and every operation of `sym` is the product of exactly one operation of the result with exactly
one operation of `sub`. -/
theorem C19_division (σ rhs : Sym K d) (hG : IsMatGroup σ.ops) (hH : IsMatGroup rhs.S)
    (hinv : rhs.inversion = false) (fuel : ℕ) (τ : Sym K d)
    (h : σ.div fuel rhs = some (.ok τ)) :
    IsMatGroup τ.ops ∧ (∀ q ∈ τ.ops, q ∈ σ.ops) ∧
    ∀ g ∈ σ.ops, ∃! p : Mat K d × Mat K d, p.1 ∈ τ.ops ∧ p.2 ∈ rhs.ops ∧ g = p.1 * p.2 := by
  have hrops : rhs.ops = rhs.S := by simp [Sym.ops, hinv]
  unfold Sym.div at h
  simp only [minv_eq] at h
  by_cases h1 : (!((σ.inversion || !rhs.inversion) && decide (σ.S.length % rhs.S.length = 0))) = true
  · rw [if_pos h1] at h; simp at h
  rw [if_neg h1] at h
  by_cases h2 : (σ.equivalenceClasses (leftRel rhs.S)).length ≠ σ.len / rhs.len
  · rw [if_pos h2] at h; simp at h
  rw [if_neg h2] at h
  cases hl : divLoop (σ.S.length + 1) fuel (σ.equivalenceClasses (leftRel rhs.S)) with
  | none => rw [hl] at h; simp at h
  | some r =>
    rw [hl] at h
    cases r with
    | error e => simp at h
    | ok cs =>
      simp only at h
      have hI := divLoop_inv hG (classes_divInv hG hH).1 hl
      cases hm : cs.mapM firstOf with
      | error e => rw [hm] at h; simp at h
      | ok xs =>
        rw [hm] at h
        cases xs with
        | nil => simp at h
        | cons x0 xs =>
          simp only [hinv, Bool.and_false] at h
          cases hk : mkSym ((x0 :: xs).map fun x => x * x0⁻¹) false with
          | error e => rw [hk] at h; simp at h
          | ok τ' =>
            rw [hk] at h
            simp only at h
            cases hc : τ'.check with
            | error e => rw [hc] at h; simp at h
            | ok b =>
              rw [hc] at h
              cases b with
              | false => simp at h
              | true =>
                simp only [Option.some.injEq, Except.ok.injEq] at h
                subst h
                -- representatives
                have hF := mapM_firstOf hm
                obtain ⟨hlen, hget⟩ := List.forall₂_iff_get.1 hF
                have hxG : ∀ x ∈ x0 :: xs, x ∈ σ.ops := by
                  intro x hx
                  obtain ⟨i, hi, rfl⟩ := List.getElem_of_mem hx
                  exact hI.memG _ (List.getElem_mem (by omega)) _ (hget i (by omega) hi)
                have hdiff : (x0 :: xs).Pairwise fun x y => x⁻¹ * y ∉ rhs.S := by
                  rw [List.pairwise_iff_getElem]
                  intro i j hi hj hij
                  exact List.pairwise_iff_getElem.1 hI.diff i j (by omega) (by omega) hij _
                    (hget i (by omega) hi) _ (hget j (by omega) hj)
                have hx0 : x0 ∈ σ.ops := hxG x0 (by simp)
                obtain ⟨hi0, h00, h00'⟩ := hG.inv hx0
                have hii : (x0⁻¹)⁻¹ = x0 := Matrix.inv_eq_right_inv h00'
                have hxnd : (x0 :: xs).Nodup := by
                  refine List.Pairwise.imp_of_mem ?_ hdiff
                  intro a b ha hb hab he
                  subst he
                  rw [(hG.inv (hxG a ha)).2.2] at hab
                  exact hab hH.one_mem
                have hynd : ((x0 :: xs).map fun x => x * x0⁻¹).Nodup := by
                  refine hxnd.map ?_
                  intro a b hab
                  have := congrArg (fun m => m * x0) hab
                  simpa [Matrix.mul_assoc, h00'] using this
                have hops : ∀ x, x ∈ τ'.ops ↔ x ∈ (x0 :: xs).map fun x => x * x0⁻¹ := by
                  intro x
                  rw [mkSym_mem_ops hk]; simp
                have hSnd : τ'.S.Nodup := by
                  rcases (mkSym_cases hk).2.2 with ⟨-, -, rfl⟩ | ⟨-, -, rfl⟩ | ⟨-, hf, -⟩ | ⟨-, -, rfl⟩
                  · exact hynd.filter (fun s => decide (0 < Matrix.det s))
                  · exact hynd
                  · simp at hf
                  · exact hynd
                have hcl := ((C17_check τ' ⟨_, _, hk⟩ hSnd).1 hc).1
                have hocl := ops_closed hcl
                have hcons : τ'.Constructed := ⟨_, _, hk⟩
                have h1m : (1 : Mat K d) ∈ τ'.ops := mem_ops.2 (Or.inl hcons.one_mem)
                have hQ : IsMatGroup τ'.ops := ⟨h1m, hocl, inv_mem_of_closed hocl h1m hcons.det_ops⟩
                have hQG : ∀ q ∈ τ'.ops, q ∈ σ.ops := by
                  intro q hq
                  obtain ⟨x, hx, rfl⟩ := List.mem_map.1 ((hops q).1 hq)
                  exact hG.mul_mem _ (hxG x hx) _ hi0
                refine ⟨hQ, hQG, ?_⟩
                have htr : ∀ g ∈ σ.ops, ∃! q, q ∈ τ'.ops ∧ x0⁻¹ * (q⁻¹ * g) * x0 ∈ rhs.S := by
                  intro g hg
                  obtain ⟨c, hc', hcov⟩ := hI.cover (g * x0) (hG.mul_mem _ hg _ hx0)
                  obtain ⟨i, hi, rfl⟩ := List.getElem_of_mem hc'
                  have hxi := hget i hi (by omega)
                  have hred : ∀ x : Mat K d, x0⁻¹ * ((x * x0⁻¹)⁻¹ * g) * x0 = x⁻¹ * (g * x0) := by
                    intro x
                    rw [Matrix.mul_inv_rev, hii]
                    calc x0⁻¹ * (x0 * x⁻¹ * g) * x0 = (x0⁻¹ * x0) * (x⁻¹ * (g * x0)) := by
                          simp only [Matrix.mul_assoc]
                      _ = x⁻¹ * (g * x0) := by rw [h00', Matrix.one_mul]
                  refine ⟨(x0 :: xs)[i]'(by omega) * x0⁻¹, ⟨(hops _).2 (List.mem_map.2 ⟨_, List.getElem_mem _, rfl⟩), ?_⟩, ?_⟩
                  · rw [hred]; exact hcov _ hxi
                  · rintro q ⟨hq, hqm⟩
                    obtain ⟨x, hx, rfl⟩ := List.mem_map.1 ((hops q).1 hq)
                    rw [hred] at hqm
                    have hxi' : (x0 :: xs)[i]'(by omega) ∈ x0 :: xs := List.getElem_mem _
                    have e1 : x = (x0 :: xs)[i]'(by omega) := by
                      by_contra hne
                      -- both represent the coset of `g x0`
                      have hrel : ∀ a ∈ x0 :: xs, ∀ b ∈ x0 :: xs, a⁻¹ * (g * x0) ∈ rhs.S →
                          b⁻¹ * (g * x0) ∈ rhs.S → a⁻¹ * b ∈ rhs.S := by
                        intro a ha b hb h1 h2
                        have h3 := hH.mul_mem _ h1 _ (hH.inv h2).1
                        have : a⁻¹ * (g * x0) * (b⁻¹ * (g * x0))⁻¹ = a⁻¹ * b := by
                          have hgx := hG.inv (hG.mul_mem _ hg _ hx0)
                          rw [Matrix.mul_inv_rev, Matrix.inv_eq_right_inv (hG.inv (hxG b hb)).2.2]
                          calc a⁻¹ * (g * x0) * ((g * x0)⁻¹ * b) = a⁻¹ * ((g * x0) * (g * x0)⁻¹) * b := by
                                simp only [Matrix.mul_assoc]
                            _ = a⁻¹ * b := by rw [hgx.2.1, Matrix.mul_one]
                        rwa [this] at h3
                      have hd2 : (x0 :: xs).Pairwise fun x y => x⁻¹ * y ∉ rhs.S ∧ y⁻¹ * x ∉ rhs.S := by
                        refine List.Pairwise.imp_of_mem ?_ hdiff
                        intro a b ha hb hab
                        refine ⟨hab, fun hba => hab ?_⟩
                        have := (hH.inv hba).1
                        rwa [Matrix.mul_inv_rev, Matrix.inv_eq_right_inv (hG.inv (hxG b hb)).2.2] at this
                      have : Std.Symm (fun x y : Mat K d => x⁻¹ * y ∉ rhs.S ∧ y⁻¹ * x ∉ rhs.S) :=
                        ⟨fun a b h => ⟨h.2, h.1⟩⟩
                      exact (hd2.forall hx hxi' hne).1 (hrel _ hx _ hxi' hqm (hcov _ hxi))
                    rw [e1]
                have hfin := transversal_conj_mat hG hH hQ hQG x0 hx0 htr
                intro g hg
                obtain ⟨q, ⟨hq, hqm⟩, hu⟩ := hfin g hg
                refine ⟨(q, q⁻¹ * g), ⟨hq, by rw [hrops]; exact hqm, ?_⟩, ?_⟩
                · simp only
                  rw [← Matrix.mul_assoc, (hQ.inv hq).2.1, Matrix.one_mul]
                · rintro ⟨a, b⟩ ⟨ha, hb, hab⟩
                  simp only at ha hb hab
                  rw [hrops] at hb
                  have hb' : a⁻¹ * g = b := by rw [hab, ← Matrix.mul_assoc, (hQ.inv ha).2.2, Matrix.one_mul]
                  have := hu a ⟨ha, by rw [hb']; exact hb⟩
                  subst this
                  rw [hb']

/-- **C19** The division always terminates (with a result or an exception). -/
theorem C19_division_terminates (σ rhs : Sym K d) (hG : IsMatGroup σ.ops) (hnd : σ.ops.Nodup) (hH : IsMatGroup rhs.S)
    (fuel : ℕ) (hf : σ.len < fuel) : ∃ r, σ.div fuel rhs = some r := by
  obtain ⟨hI, hperm, -⟩ := classes_divInv (σ := σ) hG hH
  obtain ⟨r, hr⟩ := divLoop_terminates (N := σ.S.length + 1) (n := fuel) hG (Nat.succ_pos _) hI
    (fun c hc => (hperm.nodup_iff.2 hnd).sublist (List.sublist_flatten_of_mem hc))
    (Or.inl (by
      unfold candCount
      rw [← List.length_flatten, hperm.length_eq, length_ops]
      exact hf))
  unfold Sym.div
  by_cases h1 : (!((σ.inversion || !rhs.inversion) && decide (σ.S.length % rhs.S.length = 0))) = true
  · rw [if_pos h1]; exact ⟨_, rfl⟩
  rw [if_neg h1]
  simp only
  by_cases h2 : (σ.equivalenceClasses (leftRel rhs.S)).length ≠ σ.len / rhs.len
  · rw [if_pos h2]; exact ⟨_, rfl⟩
  rw [if_neg h2, hr]
  cases r with
  | error e => exact ⟨_, rfl⟩
  | ok cs =>
    simp only
    split
    · exact ⟨_, rfl⟩
    · exact ⟨_, rfl⟩
    · split
      · exact ⟨_, rfl⟩
      · split <;> exact ⟨_, rfl⟩

theorem class_length {σ : Sym K d} {H : List (Mat K d)} (hG : IsMatGroup σ.ops) (hnd : σ.ops.Nodup)
    (hH : IsMatGroup H) (hHnd : H.Nodup) (hsub : ∀ s ∈ H, s ∈ σ.ops) :
    ∀ c ∈ σ.equivalenceClasses (leftRel H), c.length = H.length := by
  obtain ⟨hI, hperm, hne⟩ := classes_divInv (σ := σ) hG hH
  intro c hc
  have hcnd : c.Nodup := (hperm.nodup_iff.2 hnd).sublist (List.sublist_flatten_of_mem hc)
  cases hc0 : c with
  | nil => exact absurd (hc0 ▸ hc) hne
  | cons a t =>
    rw [← hc0]
    have ha : a ∈ c := by simp [hc0]
    have haG := hI.memG c hc a ha
    obtain ⟨hai, haa, haa'⟩ := hG.inv haG
    have hp : (H.map fun x => a * x).Perm c := by
      refine (List.perm_ext_iff_of_nodup (hHnd.map ?_) hcnd).2 ?_
      · intro x y hxy
        have := congrArg (fun m => a⁻¹ * m) hxy
        simpa [← Matrix.mul_assoc, haa'] using this
      · intro x
        rw [List.mem_map]
        constructor
        · rintro ⟨s, hs, rfl⟩
          have hasG : a * s ∈ σ.ops := hG.mul_mem _ haG _ (hsub s hs)
          obtain ⟨c', hc', hx'⟩ := List.mem_flatten.1 (hperm.mem_iff.2 hasG)
          by_cases hcc : c' = c
          · exact hcc ▸ hx'
          · exfalso
            have hd2 : (σ.equivalenceClasses (leftRel H)).Pairwise fun c c' =>
                (∀ a ∈ c, ∀ b ∈ c', a⁻¹ * b ∉ H) ∧ (∀ a ∈ c', ∀ b ∈ c, a⁻¹ * b ∉ H) := by
              refine List.Pairwise.imp_of_mem ?_ hI.diff
              intro c1 c2 hc1 hc2 h
              refine ⟨h, ?_⟩
              intro x hx y hy hxy
              have := (hH.inv hxy).1
              rw [Matrix.mul_inv_rev, Matrix.inv_eq_right_inv (hG.inv (hI.memG _ hc2 x hx)).2.2] at this
              exact h y hy x hx this
            have hsy : Std.Symm (fun c c' : List (Mat K d) =>
                (∀ a ∈ c, ∀ b ∈ c', a⁻¹ * b ∉ H) ∧ (∀ a ∈ c', ∀ b ∈ c, a⁻¹ * b ∉ H)) := ⟨fun a b h => ⟨h.2, h.1⟩⟩
            refine (hd2.forall hc hc' (Ne.symm hcc)).1 a ha _ hx' ?_
            rw [← Matrix.mul_assoc, haa', Matrix.one_mul]
            exact hs
        · intro hx
          exact ⟨a⁻¹ * x, hI.same c hc a ha x hx, by rw [← Matrix.mul_assoc, haa, Matrix.one_mul]⟩
    rw [← hp.length_eq, List.length_map]

/-- **C19** (defect) Dividing by a subgroup that carries the inversion flag always raises `AssertionError`. -/
theorem C19_division_by_inversion_raises (σ rhs : Sym K d) (hG : IsMatGroup σ.ops) (hnd : σ.ops.Nodup)
    (hH : IsMatGroup rhs.S) (hHnd : rhs.S.Nodup) (hsub : ∀ s ∈ rhs.S, s ∈ σ.ops) (hinv : rhs.inversion = true)
    (fuel : ℕ) : σ.div fuel rhs = some (.error .assertionError) := by
  obtain ⟨hI, hperm, hne⟩ := classes_divInv (σ := σ) hG hH
  have hlen := class_length hG hnd hH hHnd hsub
  have htot : σ.len = (σ.equivalenceClasses (leftRel rhs.S)).length * rhs.S.length := by
    rw [← length_ops, ← hperm.length_eq, List.length_flatten, List.map_congr_left hlen]
    simp
  have hn : 0 < (σ.equivalenceClasses (leftRel rhs.S)).length := by
    rw [List.length_pos_iff]
    intro h0
    rw [h0] at hperm
    have := hperm.mem_iff.2 hG.one_mem
    simp at this
  have hp : 0 < rhs.S.length := List.length_pos_of_mem hH.one_mem
  unfold Sym.div
  by_cases h1 : (!((σ.inversion || !rhs.inversion) && decide (σ.S.length % rhs.S.length = 0))) = true
  · rw [if_pos h1]
  rw [if_neg h1]
  simp only
  by_cases h2 : (σ.equivalenceClasses (leftRel rhs.S)).length ≠ σ.len / rhs.len
  · rw [if_pos h2]
  · exfalso
    simp only [ne_eq, not_not] at h2
    have hr : rhs.len = rhs.S.length * 2 := by simp [Sym.len, hinv]
    rw [htot, hr, mul_comm, Nat.mul_div_mul_left _ _ hp] at h2
    omega

/-- quarter rotations times mirror, divided by the quarter rotations -/
def sqGroup : Sym ℚ 2 := ⟨[1, rot4, mirY, -1, rot4 * mirY, mirY * rot4, -rot4, -mirY], false⟩
def rotGroup : Sym ℚ 2 := ⟨[1, rot4, -1, -rot4], false⟩

example : sqGroup.check = .ok true ∧ rotGroup.check = .ok true ∧ (∀ s ∈ rotGroup.S, s ∈ sqGroup.ops) := by
  decide +kernel

example : (match sqGroup.div 9 rotGroup with | some (.ok τ) => decide (τ.S.length = 2) | _ => false) = true := by
  decide +kernel

/-- **C19** (defect) Dividing the group generated by the threefold rotation and the inversion by the trivial group
raises `IndexError`: the rotoinversion has order 6 but only powers up to 4 are tried. -/
theorem C19_division_order_defect : ∃ σ τ : Sym ℚ 3, fromGenerator [cyc3] true = .ok σ ∧ mkSym [1] false = .ok τ ∧
    σ.div 7 τ = some (.error .indexError) := by
  refine ⟨⟨[1, cyc3, cyc3 * cyc3], true⟩, ⟨[1], false⟩, by decide +kernel, by decide +kernel, by decide +kernel⟩

/-! ## C53: `other in sym` -/

/-- **C53** `other in sym` is only `True` if all operations of `other` are operations of `sym`. -/
theorem C53_contains_sound (σ τ : Sym K d) (h : σ.contains τ = true) : ∀ s ∈ τ.ops, s ∈ σ.ops := by
  unfold Sym.contains at h
  split_ifs at h with h1 h2 h3
  simp only [List.all_eq_true, List.contains_iff_mem] at h
  intro s hs
  rcases mem_ops.1 hs with hs | ⟨hi, hs⟩
  · exact mem_ops.2 (Or.inl (h s hs))
  · refine mem_ops.2 (Or.inr ⟨?_, h _ hs⟩)
    simp [hi] at h3
    exact h3

/-- **C53** For generated groups without inversion flags the test is exact. -/
theorem C53_contains_complete (σ τ : Sym K d) (hG : IsMatGroup σ.S) (hnd : σ.S.Nodup) (hH : IsMatGroup τ.S)
    (hHnd : τ.S.Nodup) (hi : σ.inversion = false) (hi' : τ.inversion = false) :
    σ.contains τ = true ↔ ∀ s ∈ τ.ops, s ∈ σ.ops := by
  refine ⟨C53_contains_sound σ τ, ?_⟩
  intro hsub
  have ho : σ.ops = σ.S := by simp [Sym.ops, hi]
  have ho' : τ.ops = τ.S := by simp [Sym.ops, hi']
  rw [ho, ho'] at hsub
  have hl : σ.len = σ.S.length := by simp [Sym.len, hi]
  have hl' : τ.len = τ.S.length := by simp [Sym.len, hi']
  have hle : τ.S.length ≤ σ.S.length := (List.subperm_of_subset hHnd hsub).length_le
  have hdvd : τ.S.length ∣ σ.S.length := by
    have hG' : IsMatGroup σ.ops := by rw [ho]; exact hG
    have hlen := class_length (σ := σ) hG' (by rw [ho]; exact hnd) hH hHnd (by rw [ho]; exact hsub)
    obtain ⟨-, hperm, -⟩ := classes_divInv (σ := σ) hG' hH
    refine ⟨(σ.equivalenceClasses (leftRel τ.S)).length, ?_⟩
    rw [← hl, ← length_ops, ← hperm.length_eq, List.length_flatten, List.map_congr_left hlen]
    simp [mul_comm]
  unfold Sym.contains
  rw [if_neg (by rw [hl, hl']; omega), if_neg (by rw [hl, hl']; exact not_not.2 (Nat.mod_eq_zero_of_dvd hdvd)),
    if_neg (by simp [hi'])]
  simp only [List.all_eq_true, List.contains_iff_mem]
  exact hsub

/-- **C53** (defect) A mirror subgroup is not recognised when the larger group stores its improper operations through
the inversion flag: `{1, m}` is a subgroup of the group generated by `m` and `-1`, yet the test says `False`. -/
theorem C53_contains_incomplete : ∃ σ τ : Sym ℚ 3,
    fromGenerator [Matrix.diagonal ![1, 1, -1], -1] false = .ok σ ∧
    fromGenerator [Matrix.diagonal ![1, 1, -1]] false = .ok τ ∧
    (∀ s ∈ τ.ops, s ∈ σ.ops) ∧ σ.contains τ = false := by
  refine ⟨⟨[1, -Matrix.diagonal ![1, 1, -1]], true⟩, ⟨[1, Matrix.diagonal ![1, 1, -1]], false⟩,
    ok_eq (by decide +kernel), ok_eq (by decide +kernel), by decide +kernel, by decide +kernel⟩

example : sqGroup.contains rotGroup = true ∧ rotGroup.contains sqGroup = false := by decide +kernel

/-! ## C54: `subgroup` -/

/-- **C54** If `subgroup(f)` returns, the result is a group made of operations of the symmetry; its stored operations
all have the value `f(1)`, and without the inversion flag it contains all operations with this value. -/
theorem C54_subgroup {V : Type} [DecidableEq V] (σ : Sym K d) (hσ : ∃ S inv, mkSym S inv = .ok σ) (hnd : σ.S.Nodup)
    (hodd : σ.inversion = false ∨ d % 2 = 1) (f : Mat K d → V) (τ : Sym K d) (h : σ.subgroup f = .ok τ) :
    IsMatGroup τ.ops ∧ (∀ s ∈ τ.ops, s ∈ σ.ops) ∧ (∀ s ∈ τ.S, f s = f 1) ∧
    (∀ s ∈ σ.S, f s = f 1 → s ∈ τ.ops) ∧
    (σ.inversion = false → ∀ s, s ∈ τ.ops ↔ s ∈ σ.ops ∧ f s = f 1) := by
  obtain ⟨hhead, -, -⟩ := mkSym_cases (Sym.Constructed.fix hσ)
  unfold Sym.subgroup at h
  cases hS : σ.S with
  | nil => rw [hS] at hhead; simp at hhead
  | cons s0 rest =>
    rw [hS] at h hhead hnd
    simp only [List.head?_cons, Option.some.injEq] at hhead
    subst hhead
    simp only at h
    cases hk : mkSym (1 :: rest.filter fun s => decide (f s = f 1)) (σ.inversion && decide (f (-1) = f 1)) with
    | error e => rw [hk] at h; simp at h
    | ok τ' =>
      rw [hk] at h
      simp only at h
      cases hc : τ'.check with
      | error e => rw [hc] at h; simp at h
      | ok b =>
        rw [hc] at h
        cases b with
        | false => simp at h
        | true =>
          simp only [Except.ok.injEq] at h
          subst h
          have hlist : (1 :: rest.filter fun s => decide (f s = f 1)) =
              (1 :: rest).filter fun s => decide (f s = f 1) := by
            rw [List.filter_cons_of_pos (by simp)]
          have hlnd : (1 :: rest.filter fun s => decide (f s = f 1)).Nodup := by rw [hlist]; exact hnd.filter _
          have hcons : τ'.Constructed := ⟨_, _, hk⟩
          have hmemL : ∀ s, s ∈ (1 :: rest.filter fun s => decide (f s = f 1)) ↔ s ∈ σ.S ∧ f s = f 1 := by
            intro s; rw [hlist, hS, List.mem_filter]; simp
          have hops : ∀ x, x ∈ τ'.ops ↔ (x ∈ σ.S ∧ f x = f 1) ∨
              ((σ.inversion && decide (f (-1) = f 1)) = true ∧ -x ∈ σ.S ∧ f (-x) = f 1) := by
            intro x
            rw [mkSym_mem_ops hk, hmemL, hmemL]
          have hτS : τ'.S.Nodup ∧ ∀ s ∈ τ'.S, f s = f 1 := by
            rcases (mkSym_cases hk).2.2 with ⟨-, -, rfl⟩ | ⟨-, -, rfl⟩ | ⟨-, hf, hdim, -⟩ | ⟨-, -, rfl⟩
            · exact ⟨hlnd.filter (fun s => decide (0 < Matrix.det s)), fun s hs => ((hmemL s).1 (List.mem_filter.1 hs).1).2⟩
            · exact ⟨hlnd, fun s hs => ((hmemL s).1 hs).2⟩
            · exfalso
              simp only [Bool.and_eq_true] at hf
              rcases hodd with h' | h'
              · rw [h'] at hf; simp at hf
              · omega
            · exact ⟨hlnd, fun s hs => ((hmemL s).1 hs).2⟩
          have hocl := ops_closed ((C17_check τ' ⟨_, _, hk⟩ hτS.1).1 hc).1
          have h1m : (1 : Mat K d) ∈ τ'.ops := mem_ops.2 (Or.inl hcons.one_mem)
          refine ⟨⟨h1m, hocl, inv_mem_of_closed hocl h1m hcons.det_ops⟩, ?_, hτS.2, ?_, ?_⟩
          · intro s hs
            rcases (hops s).1 hs with h' | ⟨h', h'', -⟩
            · exact mem_ops.2 (Or.inl h'.1)
            · simp only [Bool.and_eq_true] at h'
              exact mem_ops.2 (Or.inr ⟨h'.1, h''⟩)
          · intro s hs hf
            exact (hops s).2 (Or.inl ⟨hS ▸ hs, hf⟩)
          · intro hi s
            rw [hops, mem_ops]
            simp [hi]

example : ∃ τ, sqGroup.subgroup (fun s : Mat ℚ 2 => s.det) = .ok τ ∧ decide (τ.S = [1, rot4, -1, -rot4]) = true :=
  okAnd_iff.1 (by decide +kernel)

/-- a function that is no class function is rejected -/
example : sqGroup.subgroup (fun s : Mat ℚ 2 => s 0 1 + s 0 0) = .error .assertionError := by decide +kernel

end TB
