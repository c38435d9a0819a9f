import Verif.Model.SymmetryDiv
import Verif.Props.SymmetryPoints
import Mathlib.Algebra.BigOperators.Field

/-!
# Properties C12, C13, C14, C17
-/

set_option linter.unusedSectionVars false

namespace TB
open Spec

variable {K : Type} [Field K] [LinearOrder K] [IsStrictOrderedRing K] {d : ℕ}

/-! ## C12 -/

/-- the stored list of a generated symmetry is itself a group without repetitions -/
theorem fromGenerator_S_group {G : List (Mat K d)} {inversion : Bool} {σ : Sym K d}
    (h : fromGenerator G inversion = .ok σ) : IsMatGroup σ.S ∧ σ.S.Nodup := by
  obtain ⟨S, hS, -, -, hnd, h1, hG, hcl, -, -⟩ := fromGenerator_ok h
  obtain ⟨-, hdet, hcases⟩ := mkSym_cases hS
  simp only [mem_map_neg] at hcases
  rcases hcases with ⟨hn, hd, rfl⟩ | ⟨hn, hd, rfl⟩ | ⟨hn, _, hd, rfl⟩ | ⟨hn, hd, rfl⟩
  · have hc : ∀ a ∈ S.filter (fun s => decide (0 < s.det)), ∀ b ∈ S.filter (fun s => decide (0 < s.det)),
        a * b ∈ S.filter (fun s => decide (0 < s.det)) := by
      intro a ha b hb
      simp only [List.mem_filter, decide_eq_true_eq] at ha hb ⊢
      exact ⟨hcl _ ha.1 _ hb.1, by rw [Matrix.det_mul]; exact mul_pos ha.2 hb.2⟩
    have h1' : (1 : Mat K d) ∈ S.filter (fun s => decide (0 < s.det)) := by simp [h1]
    exact ⟨⟨h1', hc, inv_mem_of_closed hc h1' (fun s hs => hdet s (List.mem_filter.1 hs).1)⟩, hnd.filter _⟩
  · exact ⟨⟨h1, hcl, inv_mem_of_closed hcl h1 hdet⟩, hnd⟩
  · have hc : ∀ a ∈ S ++ S.map (fun s => -s), ∀ b ∈ S ++ S.map (fun s => -s), a * b ∈ S ++ S.map (fun s => -s) := by
      simp only [List.mem_append, mem_map_neg]
      rintro a (ha | ha) b (hb | hb)
      · exact Or.inl (hcl _ ha _ hb)
      · right; have := hcl _ ha _ hb; rwa [mul_neg] at this
      · right; have := hcl _ ha _ hb; rwa [neg_mul] at this
      · left; have := hcl _ ha _ hb; rwa [neg_mul_neg] at this
    have h1' : (1 : Mat K d) ∈ S ++ S.map (fun s => -s) := by simp [h1]
    refine ⟨⟨h1', hc, inv_mem_of_closed hc h1' ?_⟩, ?_⟩
    · intro s hs
      rcases List.mem_append.1 hs with hs | hs
      · exact hdet s hs
      · rw [← abs_det_neg]; exact hdet _ (mem_map_neg.1 hs)
    · rw [List.nodup_append]
      refine ⟨hnd, hnd.map (fun a b h => neg_injective h), ?_⟩
      rintro a ha b hb rfl
      rw [mem_map_neg] at hb
      apply hn
      intro s hs
      obtain ⟨c, hc', hac, -⟩ := inv_mem_of_closed hcl h1 hdet a ha
      have hm : (-1 : Mat K d) ∈ S := by
        have := hcl _ hb _ hc'
        rwa [neg_mul, hac] at this
      simpa using hcl _ hm _ hs
  · exact ⟨⟨h1, hcl, inv_mem_of_closed hcl h1 hdet⟩, hnd⟩

/-- Specification: the action of an invertible matrix on tensors with `p` indices transforming with `s⁻¹` (from the
left) and the others with `s` (from the right); pseudo tensors pick up the sign of the determinant.  For rank (1,1)
this is `s⁻¹ T s`. -/
noncomputable def Spec.tensorAct {n : ℕ} (p : ℕ) (pseudo : Bool) (s : Mat K d) (T : (Fin n → Fin d) → K) :
    (Fin n → Fin d) → K := fun out =>
  (if pseudo then (SignType.sign s.det : K) else 1) * ∑ inn : Fin n → Fin d,
    (∏ i : Fin n, if i.val < p then s⁻¹ (out i) (inn i) else s (inn i) (out i)) * T inn

theorem tensorTransform_eq {n : ℕ} (p : ℕ) (pseudo : Bool) (s : Mat K d) (T : (Fin n → Fin d) → K) :
    tensorTransform p pseudo s T = Spec.tensorAct p pseudo s T := by
  funext out
  unfold tensorTransform Spec.tensorAct
  rw [Finset.mul_sum, minv_eq]
  refine Finset.sum_congr rfl fun inn _ => ?_
  ring

theorem tensorAct_comp {n : ℕ} (p : ℕ) (pseudo : Bool) (s t : Mat K d)
    (T : (Fin n → Fin d) → K) :
    Spec.tensorAct p pseudo t (Spec.tensorAct p pseudo s T) = Spec.tensorAct p pseudo (s * t) T := by
  funext out
  unfold Spec.tensorAct
  have hsign : (if pseudo then (SignType.sign (s * t).det : K) else 1) =
      (if pseudo then (SignType.sign t.det : K) else 1) * (if pseudo then (SignType.sign s.det : K) else 1) := by
    cases pseudo
    · simp
    · simp only [if_true, Matrix.det_mul, sign_mul, SignType.coe_mul]; ring
  rw [hsign, mul_assoc]
  congr 1
  simp only [Finset.mul_sum]
  rw [Finset.sum_comm]
  refine Finset.sum_congr rfl fun inn _ => ?_
  have hfac : ∀ i : Fin n, (if i.val < p then (s * t)⁻¹ (out i) (inn i) else (s * t) (inn i) (out i)) =
      ∑ m : Fin d, (if i.val < p then t⁻¹ (out i) m else t m (out i)) *
        (if i.val < p then s⁻¹ m (inn i) else s (inn i) m) := by
    intro i
    by_cases h : i.val < p
    · simp only [h, if_true, Matrix.mul_inv_rev, Matrix.mul_apply]
    · simp only [h, if_false, Matrix.mul_apply]
      exact Finset.sum_congr rfl fun m _ => mul_comm _ _
  rw [Finset.prod_congr rfl fun i _ => hfac i, Finset.prod_univ_sum, Fintype.piFinset_univ, Finset.sum_mul,
    Finset.mul_sum]
  refine Finset.sum_congr rfl fun mid _ => ?_
  rw [Finset.prod_mul_distrib]
  ring

theorem tensorAct_add_smul {n : ℕ} (p : ℕ) (pseudo : Bool) (s : Mat K d) (l : List ((Fin n → Fin d) → K)) (c : K) :
    Spec.tensorAct p pseudo s (fun o => (l.map fun T => T o).sum / c) =
      fun o => (l.map fun T => Spec.tensorAct p pseudo s T o).sum / c := by
  funext out
  induction l with
  | nil => simp [Spec.tensorAct]
  | cons T l ih =>
    have e : Spec.tensorAct p pseudo s (fun o => ((T :: l).map fun T => T o).sum / c) out =
        Spec.tensorAct p pseudo s T out / c + Spec.tensorAct p pseudo s (fun o => (l.map fun T => T o).sum / c) out := by
      unfold Spec.tensorAct
      rw [mul_div_assoc, ← mul_add]
      congr 1
      rw [Finset.sum_div, ← Finset.sum_add_distrib]
      refine Finset.sum_congr rfl fun inn _ => ?_
      simp only [List.map_cons, List.sum_cons]
      ring
    rw [e, ih]
    simp only [List.map_cons, List.sum_cons]
    ring

theorem tensorAct_one {n : ℕ} (p : ℕ) (pseudo : Bool) (T : (Fin n → Fin d) → K) :
    Spec.tensorAct p pseudo 1 T = T := by
  funext out
  unfold Spec.tensorAct
  have hs : (if pseudo then (SignType.sign (1 : Mat K d).det : K) else 1) = 1 := by
    cases pseudo <;> simp
  rw [hs, one_mul, Finset.sum_eq_single out]
  · simp
  · intro inn _ hne
    obtain ⟨i, hi⟩ := Function.ne_iff.1 hne
    rw [Finset.prod_eq_zero (Finset.mem_univ i), zero_mul]
    by_cases h : i.val < p
    · simp [h, hi.symm]
    · simp [h, hi]
  · simp

theorem tensorAct_neg {n : ℕ} (p : ℕ) (pseudo : Bool) (s : Mat K d) (hs : IsUnit s.det) (T : (Fin n → Fin d) → K) :
    Spec.tensorAct p pseudo (-s) T = fun o =>
      (if pseudo then (-1 : K) ^ d else 1) * (-1) ^ n * Spec.tensorAct p pseudo s T o := by
  have hinv : (-s)⁻¹ = -s⁻¹ := by
    refine Matrix.inv_eq_left_inv ?_
    rw [neg_mul_neg]; exact Matrix.nonsing_inv_mul _ hs
  funext out
  unfold Spec.tensorAct
  have hsg : (if pseudo then (SignType.sign (-s).det : K) else 1) =
      (if pseudo then (-1 : K) ^ d else 1) * (if pseudo then (SignType.sign s.det : K) else 1) := by
    cases pseudo
    · simp
    · simp only [if_true, Matrix.det_neg, Fintype.card_fin, sign_mul, SignType.coe_mul]
      congr 1
      rcases Nat.even_or_odd d with h | h
      · simp [h.neg_one_pow]
      · simp [h.neg_one_pow]
  rw [hsg]
  have hprod : ∀ inn : Fin n → Fin d,
      (∏ i : Fin n, if i.val < p then (-s)⁻¹ (out i) (inn i) else (-s) (inn i) (out i)) =
      (-1) ^ n * ∏ i : Fin n, if i.val < p then s⁻¹ (out i) (inn i) else s (inn i) (out i) := by
    intro inn
    have : ∀ i : Fin n, (if i.val < p then (-s)⁻¹ (out i) (inn i) else (-s) (inn i) (out i)) =
        (-1) * (if i.val < p then s⁻¹ (out i) (inn i) else s (inn i) (out i)) := by
      intro i
      rw [hinv]
      split_ifs <;> simp
    rw [Finset.prod_congr rfl fun i _ => this i, Finset.prod_mul_distrib]
    simp
  simp only [hprod, mul_assoc]
  rw [← Finset.mul_sum]
  ring

theorem symmetrizeTensor_eq {n : ℕ} (σ : Sym K d) (p : ℕ) (pseudo : Bool) (T : (Fin n → Fin d) → K) :
    σ.symmetrizeTensor p pseudo T =
      fun o => ((σ.S.map fun s => Spec.tensorAct p pseudo s T).map fun T => T o).sum / (σ.S.length : K) := by
  funext o
  unfold Sym.symmetrizeTensor
  simp only [tensorTransform_eq, List.map_map, Function.comp_def]

/-- **C12** For every generated symmetry, rank and tensor: the symmetrised tensor is invariant under every listed
operation, invariant tensors are not changed, and so symmetrising twice is the same as once. -/
theorem C12_symmetrize_projection {n : ℕ} (G : List (Mat K d)) (inversion : Bool) (σ : Sym K d)
    (h : fromGenerator G inversion = .ok σ) (p : ℕ) (pseudo : Bool) (T : (Fin n → Fin d) → K) :
    (∀ s ∈ σ.S, Spec.tensorAct p pseudo s (σ.symmetrizeTensor p pseudo T) = σ.symmetrizeTensor p pseudo T) ∧
    ((∀ s ∈ σ.S, Spec.tensorAct p pseudo s T = T) → σ.symmetrizeTensor p pseudo T = T) ∧
    σ.symmetrizeTensor p pseudo (σ.symmetrizeTensor p pseudo T) = σ.symmetrizeTensor p pseudo T := by
  obtain ⟨hg, hnd⟩ := fromGenerator_S_group h
  have hfix : ∀ T : (Fin n → Fin d) → K,
      (∀ s ∈ σ.S, Spec.tensorAct p pseudo s T = T) → σ.symmetrizeTensor p pseudo T = T := by
    intro T hT
    funext o
    rw [symmetrizeTensor_eq]
    have hl : (σ.S.length : K) ≠ 0 := by
      have := List.length_pos_of_mem hg.one_mem
      exact_mod_cast this.ne'
    have : (σ.S.map fun s => Spec.tensorAct p pseudo s T) = σ.S.map fun _ => T := List.map_congr_left hT
    simp only [this, List.map_const', List.map_replicate, List.sum_replicate, nsmul_eq_mul]
    field_simp
  have hinv : ∀ s ∈ σ.S, Spec.tensorAct p pseudo s (σ.symmetrizeTensor p pseudo T) =
      σ.symmetrizeTensor p pseudo T := by
    intro t ht
    rw [symmetrizeTensor_eq, tensorAct_add_smul]
    funext o
    congr 1
    simp only [List.map_map, Function.comp_def, tensorAct_comp]
    obtain ⟨u, hu, htu, hut⟩ := hg.inv_mem t ht
    have hperm : (σ.S.map fun s => s * t).Perm σ.S := by
      refine (List.perm_ext_iff_of_nodup (hnd.map ?_) hnd).2 ?_
      · intro a b hab
        have := congrArg (· * u) hab
        simpa [Matrix.mul_assoc, htu] using this
      · intro x
        rw [List.mem_map]
        constructor
        · rintro ⟨s, hs, rfl⟩; exact hg.mul_mem _ hs _ ht
        · intro hx
          exact ⟨x * u, hg.mul_mem _ hx _ hu, by rw [Matrix.mul_assoc, hut, Matrix.mul_one]⟩
    have := (hperm.map fun s => Spec.tensorAct p pseudo s T o).sum_eq
    rw [List.map_map] at this
    exact this
  exact ⟨hinv, hfix T, hfix _ hinv⟩

/-- **C12** For even rank (no pseudo tensor) the result is invariant under all operations including those implied by
the inversion flag; the same holds for pseudo tensors when rank + dimension is even. -/
theorem C12_symmetrize_inversion {n : ℕ} (G : List (Mat K d)) (inversion : Bool) (σ : Sym K d)
    (h : fromGenerator G inversion = .ok σ) (p : ℕ) (pseudo : Bool) (T : (Fin n → Fin d) → K)
    (hn : Even (n + if pseudo then d else 0)) :
    ∀ s ∈ σ.ops, Spec.tensorAct p pseudo s (σ.symmetrizeTensor p pseudo T) = σ.symmetrizeTensor p pseudo T := by
  have hc : σ.Constructed := by
    obtain ⟨S, hS, -⟩ := fromGenerator_ok h
    exact ⟨S, inversion, hS⟩
  have h1 := (C12_symmetrize_projection G inversion σ h p pseudo T).1
  intro s hs
  rcases mem_ops.1 hs with hs' | ⟨-, hs'⟩
  · exact h1 s hs'
  · have := tensorAct_neg p pseudo (-s) (isUnit_det_of_abs (hc.det _ hs')) (σ.symmetrizeTensor p pseudo T)
    rw [neg_neg, h1 _ hs'] at this
    rw [this]
    funext o
    have hsg : (if pseudo then (-1 : K) ^ d else 1) * (-1) ^ n = 1 := by
      cases pseudo
      · simp only [Bool.false_eq_true, if_false, add_zero, one_mul] at hn ⊢
        exact hn.neg_one_pow
      · simp only [if_true] at hn ⊢
        rw [← pow_add, add_comm]; exact hn.neg_one_pow
    rw [hsg, one_mul]

/-- **C12** (boundary) For odd rank the inversion flag is ignored: a vector is left as it is by the group `{1, -1}`. -/
theorem C12_symmetrize_odd_rank_ignores_inversion : ∃ (σ : Sym ℚ 3) (T : (Fin 1 → Fin 3) → ℚ),
    fromGenerator [-1] false = .ok σ ∧ (-1 : Mat ℚ 3) ∈ σ.ops ∧
    Spec.tensorAct 0 false (-1) (σ.symmetrizeTensor 0 false T) ≠ σ.symmetrizeTensor 0 false T := by
  have hgen : fromGenerator [-1] false = .ok (⟨[1], true⟩ : Sym ℚ 3) := by decide +kernel
  refine ⟨⟨[1], true⟩, fun _ => 1, hgen, by decide +kernel, ?_⟩
  have h1 : Sym.symmetrizeTensor (⟨[1], true⟩ : Sym ℚ 3) 0 false (fun _ : Fin 1 → Fin 3 => (1 : ℚ)) = fun _ => 1 := by
    refine (C12_symmetrize_projection _ _ _ hgen 0 false _).2.1 ?_
    intro s hs
    simp only [List.mem_singleton] at hs
    rw [hs, tensorAct_one]
  rw [h1, tensorAct_neg 0 false 1 (by simp), tensorAct_one]
  intro h
  have := congrFun h (fun _ => 0)
  norm_num at this

/-- the theorem applies to the four rotations of the plane -/
example : ∃ σ, fromGenerator [rot4] false = .ok σ ∧ decide (σ.S = [1, rot4, -1, -rot4]) = true :=
  okAnd_iff.1 (by decide +kernel)

/-! ## C13 -/

theorem scanClass_spec {α : Type} (rel : α → α → Bool) (s : α) (l : List α) :
    scanClass rel s l = (l.filter (rel s), l.filter fun x => !rel s x) := by
  induction l with
  | nil => rfl
  | cons x l ih =>
    simp only [scanClass, ih]
    by_cases h : rel s x = true
    · simp [h]
    · simp [h]

theorem eqClassesLoop_spec {α : Type} (rel : α → α → Bool) (n : ℕ) (l : List α) (hn : l.length ≤ n)
    (hr : ∀ a ∈ l, rel a a = true) (hs : ∀ a ∈ l, ∀ b ∈ l, rel a b = true → rel b a = true)
    (ht : ∀ a ∈ l, ∀ b ∈ l, ∀ c ∈ l, rel a b = true → rel b c = true → rel a c = true) :
    (eqClassesLoop rel n l).flatten.Perm l ∧ [] ∉ eqClassesLoop rel n l ∧
    (∀ c ∈ eqClassesLoop rel n l, ∀ a ∈ c, ∀ b ∈ c, rel a b = true) ∧
    (eqClassesLoop rel n l).Pairwise (fun c c' => ∀ a ∈ c, ∀ b ∈ c', rel a b = false) := by
  induction n generalizing l with
  | zero =>
    cases l with
    | nil => simp [eqClassesLoop]
    | cons a l => simp at hn
  | succ n ih =>
    cases l with
    | nil => simp [eqClassesLoop]
    | cons s l =>
      simp only [eqClassesLoop, scanClass_spec]
      set l1 := l.filter (rel s) with hl1
      set l2 := l.filter fun x => !rel s x with hl2
      have hsub : ∀ x ∈ l2, x ∈ s :: l := fun x hx => by simp [(List.mem_filter.1 hx).1]
      have hsub1 : ∀ x ∈ s :: l1, x ∈ s :: l := by
        intro x hx
        rcases List.mem_cons.1 hx with rfl | hx
        · simp
        · simp [(List.mem_filter.1 hx).1]
      have hrel : ∀ x ∈ s :: l1, rel s x = true := by
        intro x hx
        rcases List.mem_cons.1 hx with rfl | hx
        · exact hr _ (by simp)
        · exact (List.mem_filter.1 hx).2
      have hlen : l2.length ≤ n := by
        have := List.length_filter_le (fun x => !rel s x) l
        rw [← hl2] at this
        simp at hn; omega
      obtain ⟨i1, i2, i3, i4⟩ := ih l2 hlen (fun a ha => hr a (hsub a ha))
        (fun a ha b hb => hs a (hsub a ha) b (hsub b hb))
        (fun a ha b hb c hc => ht a (hsub a ha) b (hsub b hb) c (hsub c hc))
      refine ⟨?_, ?_, ?_, ?_⟩
      · rw [List.flatten_cons, List.cons_append]
        refine List.Perm.cons s ?_
        exact (List.Perm.append_left l1 i1).trans (List.filter_append_perm _ l)
      · simp [i2]
      · intro c hc a ha b hb
        rcases List.mem_cons.1 hc with rfl | hc
        · exact ht a (hsub1 a ha) s (by simp) b (hsub1 b hb)
            (hs s (by simp) a (hsub1 a ha) (hrel a ha)) (hrel b hb)
        · exact i3 c hc a ha b hb
      · rw [List.pairwise_cons]
        refine ⟨?_, i4⟩
        intro c hc a ha b hb
        have hb2 : b ∈ l2 := i1.mem_iff.1 (List.mem_flatten.2 ⟨c, hc, hb⟩)
        have hnb : rel s b = false := by simpa using (List.mem_filter.1 hb2).2
        by_contra hab
        have hab' : rel a b = true := by simpa using hab
        have := ht s (by simp) a (hsub1 a ha) b (hsub b hb2) (hrel a ha) hab'
        rw [this] at hnb; simp at hnb

/-- **C13** `equivalence_classes` partitions the operations (with multiplicity) into nonempty classes: members of one
class are related, members of different classes are not. -/
theorem C13_equivalence_classes (σ : Sym K d) (rel : Mat K d → Mat K d → Bool)
    (hr : ∀ a ∈ σ.ops, rel a a = true) (hs : ∀ a ∈ σ.ops, ∀ b ∈ σ.ops, rel a b = true → rel b a = true)
    (ht : ∀ a ∈ σ.ops, ∀ b ∈ σ.ops, ∀ c ∈ σ.ops, rel a b = true → rel b c = true → rel a c = true) :
    (σ.equivalenceClasses rel).flatten.Perm σ.ops ∧ [] ∉ σ.equivalenceClasses rel ∧
    (∀ c ∈ σ.equivalenceClasses rel, ∀ a ∈ c, ∀ b ∈ c, rel a b = true) ∧
    (σ.equivalenceClasses rel).Pairwise (fun c c' => ∀ a ∈ c, ∀ b ∈ c', rel a b = false) := by
  have := eqClassesLoop_spec rel σ.ops.length σ.ops.reverse (by simp) (by simpa using hr) (by simpa using hs)
    (by simpa using ht)
  refine ⟨this.1.trans (List.reverse_perm _), this.2.1, this.2.2.1, this.2.2.2⟩

theorem conjugated_iff (σ : Sym K d) (hσ : ∃ S inv, mkSym S inv = .ok σ) (a b : Mat K d) :
    σ.conjugated a b = true ↔ ∃ s ∈ σ.ops, s * a = b * s := by
  have hu : ∀ s ∈ σ.S, IsUnit s.det := fun s hs => isUnit_det_of_abs (Sym.Constructed.det hσ s hs)
  have key : ∀ s ∈ σ.S, (s * a * s⁻¹ = b ↔ s * a = b * s) := by
    intro s hs
    constructor
    · intro h
      rw [← h, Matrix.mul_assoc, Matrix.nonsing_inv_mul _ (hu s hs), Matrix.mul_one]
    · intro h
      rw [h, Matrix.mul_assoc, Matrix.mul_nonsing_inv _ (hu s hs), Matrix.mul_one]
  unfold Sym.conjugated
  simp only [minv_eq]
  rw [List.any_eq_true]
  constructor
  · rintro ⟨s, hs, h⟩
    exact ⟨s, mem_ops.2 (Or.inl hs), (key s hs).1 (by simpa using h)⟩
  · rintro ⟨s, hs, h⟩
    rcases mem_ops.1 hs with hs | ⟨-, hs⟩
    · exact ⟨s, hs, by simpa using (key s hs).2 h⟩
    · exact ⟨-s, hs, decide_eq_true ((key _ hs).2 (by rw [neg_mul, mul_neg, h]))⟩

/-- **C13** `conjugacy_classes` of a group: two operations are in the same list exactly when they are conjugate. -/
theorem C13_conjugacy_classes (σ : Sym K d) (hσ : ∃ S inv, mkSym S inv = .ok σ) (hg : IsMatGroup σ.ops) :
    σ.conjugacyClasses.flatten.Perm σ.ops ∧ [] ∉ σ.conjugacyClasses ∧
    (∀ c ∈ σ.conjugacyClasses, ∀ a ∈ c, ∀ b ∈ c, ∃ s ∈ σ.ops, s * a = b * s) ∧
    σ.conjugacyClasses.Pairwise (fun c c' => ∀ a ∈ c, ∀ b ∈ c', ¬ ∃ s ∈ σ.ops, s * a = b * s) := by
  have hc := conjugated_iff σ hσ
  obtain ⟨h1, h2, h3, h4⟩ := C13_equivalence_classes σ σ.conjugated
    (by
      intro a _
      exact (hc a a).2 ⟨1, hg.one_mem, by simp⟩)
    (by
      intro a _ b _ hab
      obtain ⟨s, hs, h⟩ := (hc a b).1 hab
      obtain ⟨t, ht, hst, hts⟩ := hg.inv_mem s hs
      refine (hc b a).2 ⟨t, ht, ?_⟩
      calc t * b = t * (b * s) * t := by rw [Matrix.mul_assoc, Matrix.mul_assoc, hst, Matrix.mul_one]
        _ = a * t := by rw [← h, ← Matrix.mul_assoc, hts, Matrix.one_mul])
    (by
      intro a _ b _ c _ hab hbc
      obtain ⟨s, hs, h⟩ := (hc a b).1 hab
      obtain ⟨t, ht, h'⟩ := (hc b c).1 hbc
      exact (hc a c).2 ⟨t * s, hg.mul_mem _ ht _ hs, by
        rw [Matrix.mul_assoc, h, ← Matrix.mul_assoc, h', Matrix.mul_assoc]⟩)
  refine ⟨h1, h2, ?_, ?_⟩
  · intro c hcm a ha b hb
    exact (hc a b).1 (h3 c hcm a ha b hb)
  · refine h4.imp ?_
    intro c c' h a ha b hb hab
    have := h a ha b hb
    rw [(hc a b).2 hab] at this
    simp at this

/-- grouping the square group by determinant -/
example : ((⟨[1, rot4, -1, -rot4, mirY], false⟩ : Sym ℚ 2).equivalenceClasses fun a b => decide (a.det = b.det)) =
    [[mirY], [-rot4, -1, rot4, 1]] := by decide +kernel

/-! ## C14 -/

theorem mem_classOf {σ : Sym K d} {pts : List (Vec K d)} (hnd : pts.Nodup) {r : Vec K d} {j : ℕ} :
    j ∈ σ.classOf pts r ↔ ∃ q, pts[j]? = some q ∧ ∃ s ∈ σ.S, q = s.mulVec r := by
  unfold Sym.classOf
  rw [List.mem_filterMap]
  constructor
  · rintro ⟨s, hs, h⟩
    obtain ⟨hi, h1, -⟩ := List.findIdx?_eq_some_iff_getElem.1 h
    exact ⟨pts[j], List.getElem?_eq_getElem hi, s, hs, by simpa using h1⟩
  · rintro ⟨q, hq, s, hs, rfl⟩
    refine ⟨s, hs, List.findIdx?_eq_some_iff_getElem.2 ?_⟩
    obtain ⟨hj, he⟩ := List.getElem?_eq_some_iff.1 hq
    refine ⟨hj, by simp [he], ?_⟩
    intro i hi
    simp only [decide_eq_true_eq]
    intro h'
    have := (List.Nodup.getElem_inj_iff hnd (hi := by omega) (hj := hj)).1 (h'.trans he.symm)
    omega

/-- **C14** `find_classes` for a group and distinct points: the keys are strictly increasing, an index belongs to a
class exactly when its point is an image of the representative, every index belongs to exactly one class, and each
key is the smallest index of its class. (The set of Python is modelled by a list; only membership matters.) -/
theorem C14_find_classes (σ : Sym K d) (hg : IsMatGroup σ.S) (pts : List (Vec K d)) (hnd : pts.Nodup) :
    ((σ.findClasses pts).map Prod.fst).Pairwise (· < ·) ∧
    (∀ i c, (i, c) ∈ σ.findClasses pts → i ∈ c ∧
      ∀ j, j ∈ c ↔ ∃ p q, pts[i]? = some p ∧ pts[j]? = some q ∧ ∃ s ∈ σ.S, q = s.mulVec p) ∧
    (∀ j, j < pts.length → ∃! e, e ∈ σ.findClasses pts ∧ j ∈ e.2) ∧
    (∀ e ∈ σ.findClasses pts, ∀ j ∈ e.2, e.1 ≤ j) := by
  -- equivalence of indices
  let E : ℕ → ℕ → Prop := fun i j => ∃ p q, pts[i]? = some p ∧ pts[j]? = some q ∧ ∃ s ∈ σ.S, q = s.mulVec p
  have hsymm : ∀ i j, E i j → E j i := by
    rintro i j ⟨p, q, hp, hq, s, hs, rfl⟩
    obtain ⟨t, ht, -, hts⟩ := hg.inv_mem s hs
    exact ⟨_, p, hq, hp, t, ht, by rw [Matrix.mulVec_mulVec, hts, Matrix.one_mulVec]⟩
  have htrans : ∀ i j k, E i j → E j k → E i k := by
    rintro i j k ⟨p, q, hp, hq, s, hs, rfl⟩ ⟨q', r, hq', hr, t, ht, rfl⟩
    rw [hq] at hq'
    cases Option.some.inj hq'
    exact ⟨p, _, hp, hr, t * s, hg.mul_mem _ ht _ hs, by rw [Matrix.mulVec_mulVec]⟩
  have hrefl : ∀ i, i < pts.length → E i i := by
    intro i hi
    exact ⟨_, _, List.getElem?_eq_getElem hi, List.getElem?_eq_getElem hi, 1, hg.one_mem, by simp⟩
  have hclass : ∀ i p, pts[i]? = some p → ∀ j, j ∈ σ.classOf pts p ↔ E i j := by
    intro i p hp j
    rw [mem_classOf hnd]
    constructor
    · rintro ⟨q, hq, s, hs, he⟩; exact ⟨p, q, hp, hq, s, hs, he⟩
    · rintro ⟨p', q, hp', hq, s, hs, he⟩
      rw [hp] at hp'
      cases Option.some.inj hp'
      exact ⟨q, hq, s, hs, he⟩
  -- invariant of the loop
  have main : ∀ (n : ℕ) (l : List (Vec K d)) (st : List (ℕ × List ℕ) × List ℕ),
      pts.drop n = l → n ≤ pts.length →
      (st.1.map Prod.fst).Pairwise (· < ·) → (∀ e ∈ st.1, e.1 < n) →
      (∀ e ∈ st.1, ∀ j, j ∈ e.2 ↔ E e.1 j) →
      (∀ j, j ∈ st.2 ↔ ∃ i, i < n ∧ E i j) →
      (∀ e ∈ st.1, ∀ j, E e.1 j → e.1 ≤ j) →
      (∀ i, i < n → ∃ e ∈ st.1, E e.1 i) →
      let r := (l.zipIdx n).foldl (fun (st : List (ℕ × List ℕ) × List ℕ) p =>
        let c := σ.classOf pts p.1
        (if p.2 ∈ st.2 then st.1 else st.1 ++ [(p.2, c)], st.2 ++ c)) st
      (r.1.map Prod.fst).Pairwise (· < ·) ∧ (∀ e ∈ r.1, e.1 < pts.length) ∧
      (∀ e ∈ r.1, ∀ j, j ∈ e.2 ↔ E e.1 j) ∧
      (∀ e ∈ r.1, ∀ j, E e.1 j → e.1 ≤ j) ∧
      (∀ i, i < pts.length → ∃ e ∈ r.1, E e.1 i) := by
    intro n l
    induction l generalizing n with
    | nil =>
      intro st hd hn a1 a2 a3 a4 a5 a6
      have : pts.length ≤ n := List.drop_eq_nil_iff.1 hd
      have hn' : n = pts.length := by omega
      subst hn'
      exact ⟨a1, a2, a3, a5, a6⟩
    | cons p l ih =>
      intro st hd hn a1 a2 a3 a4 a5 a6
      have hlt : n < pts.length := by
        by_contra hge
        rw [List.drop_eq_nil_iff.2 (by omega)] at hd
        simp at hd
      rw [List.drop_eq_getElem_cons hlt] at hd
      obtain ⟨hpe, hd'⟩ := List.cons.inj hd
      have hp : pts[n]? = some p := by rw [List.getElem?_eq_getElem hlt, hpe]
      simp only [List.zipIdx_cons, List.foldl_cons]
      refine ih (n + 1) _ hd' hlt ?_ ?_ ?_ ?_ ?_ ?_
      · split_ifs with hcov
        · exact a1
        · rw [List.map_append, List.pairwise_append]
          refine ⟨a1, by simp, ?_⟩
          intro a ha b hb
          obtain ⟨e, he, rfl⟩ := List.mem_map.1 ha
          simp at hb; subst hb
          exact a2 e he
      · intro e he
        split_ifs at he with hcov
        · exact Nat.lt_succ_of_lt (a2 e he)
        · rcases List.mem_append.1 he with he | he
          · exact Nat.lt_succ_of_lt (a2 e he)
          · simp at he; subst he; exact Nat.lt_succ_self n
      · intro e he j
        split_ifs at he with hcov
        · exact a3 e he j
        · rcases List.mem_append.1 he with he | he
          · exact a3 e he j
          · simp at he; subst he; exact hclass n p hp j
      · intro j
        rw [List.mem_append, a4 j, hclass n p hp j]
        constructor
        · rintro (⟨i, hi, h⟩ | h)
          · exact ⟨i, by omega, h⟩
          · exact ⟨n, by omega, h⟩
        · rintro ⟨i, hi, h⟩
          rcases Nat.lt_succ_iff_lt_or_eq.1 hi with hi | rfl
          · exact Or.inl ⟨i, hi, h⟩
          · exact Or.inr h
      · intro e he j hj
        split_ifs at he with hcov
        · exact a5 e he j hj
        · rcases List.mem_append.1 he with he | he
          · exact a5 e he j hj
          · simp at he; subst he
            by_contra hlt'
            exact hcov ((a4 n).2 ⟨j, by simpa using hlt', hsymm _ _ hj⟩)
      · intro i hi
        rcases Nat.lt_succ_iff_lt_or_eq.1 hi with hi | rfl
        · obtain ⟨e, he, h⟩ := a6 i hi
          refine ⟨e, ?_, h⟩
          split_ifs
          · exact he
          · exact List.mem_append_left _ he
        · split_ifs with hcov
          · obtain ⟨k, hk, hki⟩ := (a4 i).1 hcov
            obtain ⟨e, he, h⟩ := a6 k hk
            exact ⟨e, he, htrans _ _ _ h hki⟩
          · exact ⟨(i, σ.classOf pts p), List.mem_append_right _ (by simp), hrefl i hlt⟩
  obtain ⟨r1, r2, r3, r4, r5⟩ := main 0 pts ([], []) (by simp) (by simp) (by simp) (by simp) (by simp) (by simp)
    (by simp) (by simp)
  refine ⟨r1, ?_, ?_, ?_⟩
  · intro i c hic
    exact ⟨(r3 (i, c) hic i).2 (hrefl i (r2 _ hic)), r3 (i, c) hic⟩
  · intro j hj
    obtain ⟨e, he, h⟩ := r5 j hj
    refine ⟨e, ⟨he, (r3 e he j).2 h⟩, ?_⟩
    rintro e' ⟨he', hj'⟩
    have h' := (r3 e' he' j).1 hj'
    have h1 := r4 e he e'.1 (htrans _ _ _ h (hsymm _ _ h'))
    have h2 := r4 e' he' e.1 (htrans _ _ _ h' (hsymm _ _ h))
    have hk : e'.1 = e.1 := le_antisymm h2 h1
    -- equal keys, the keys are distinct
    by_contra hne
    have hnd' : ((σ.findClasses pts).map Prod.fst).Nodup := r1.imp (fun h => h.ne)
    exact hne (List.inj_on_of_nodup_map hnd' he' he hk)
  · intro e he j hj
    exact r4 e he j ((r3 e he j).1 hj)

example : (⟨[1, rot4, -1, -rot4], false⟩ : Sym ℚ 2).findClasses [![0, 0], ![1, 0], ![2, 1], ![0, 1], ![-1, 2]] =
    [(0, [0, 0, 0, 0]), (1, [1, 3]), (2, [2, 4])] := by decide +kernel

/-! ## C17 -/

theorem nodup_perm_of_subset {α : Type} [DecidableEq α] {l m : List α} (hl : l.Nodup) (hs : ∀ a ∈ l, a ∈ m)
    (h : m.length ≤ l.length) : l.Perm m :=
  (List.subperm_of_subset hl hs).perm_of_length_le h

/-- **C17** Comparison of symmetries: equality of a left-hand side without repetitions means the same operations,
and the same operations with the same flag compare equal. -/
theorem C17_equality (σ τ : Sym K d) (hnd : σ.S.Nodup) :
    (σ.eq τ = true → σ.ops.Perm τ.ops) ∧
    (σ.inversion = τ.inversion → σ.S.Perm τ.S → σ.eq τ = true) := by
  constructor
  · intro h
    simp only [Sym.eq, Bool.and_eq_true, beq_iff_eq] at h
    obtain ⟨⟨hi, hl⟩, hp⟩ := h
    have hlen : τ.S.length ≤ σ.S.length := by
      unfold Sym.len at hl
      rw [hi] at hl
      split_ifs at hl <;> omega
    have := nodup_perm_of_subset hnd (pcZero_iff.1 hp) hlen
    unfold Sym.ops
    rw [hi]
    split_ifs
    · exact this.append (this.map _)
    · exact this
  · intro hi hp
    simp only [Sym.eq, Bool.and_eq_true, beq_iff_eq]
    refine ⟨⟨hi, ?_⟩, pcZero_iff.2 fun a ha => hp.mem_iff.1 ha⟩
    unfold Sym.len
    rw [hi, hp.length_eq]

/-- **C17** `check()` of a symmetry without repetitions: `True` exactly when the list is closed under products and has
less than 200 elements (a closed list of 200 or more makes it raise). -/
theorem C17_check (σ : Sym K d) (hσ : ∃ S inv, mkSym S inv = .ok σ) (hnd : σ.S.Nodup) :
    σ.check = .ok true ↔ (∀ a ∈ σ.S, ∀ b ∈ σ.S, a * b ∈ σ.S) ∧ σ.S.length < 200 := by
  have hc : σ.Constructed := hσ
  have hne : σ.S ≠ [] := List.ne_nil_of_mem hc.one_mem
  unfold Sym.check
  constructor
  · intro h
    cases hgen : fromGenerator σ.S σ.inversion with
    | error e => rw [hgen] at h; simp at h
    | ok τ =>
      rw [hgen] at h
      simp only [Except.ok.injEq] at h
      simp only [Sym.eq, Bool.and_eq_true, beq_iff_eq] at h
      obtain ⟨⟨hi, hl⟩, hp⟩ := h
      have hlen : τ.S.length = σ.S.length := by
        unfold Sym.len at hl
        rw [hi] at hl
        split_ifs at hl <;> omega
      have hperm := nodup_perm_of_subset hnd (pcZero_iff.1 hp) hlen.le
      obtain ⟨hg, -⟩ := fromGenerator_S_group hgen
      refine ⟨fun a ha b hb => hperm.mem_iff.2 (hg.mul_mem _ (hperm.mem_iff.1 ha) _ (hperm.mem_iff.1 hb)), ?_⟩
      obtain ⟨S, hS, -, -, hSnd, -, hGS, -, hS200, -⟩ := fromGenerator_ok hgen
      have := (List.subperm_of_subset hnd hGS).length_le
      omega
  · rintro ⟨hcl, hlen⟩
    have hclos : ∀ x ∈ Submonoid.closure {g | g ∈ σ.S}, x ∈ σ.S := by
      intro x hx
      induction hx using Submonoid.closure_induction with
      | mem x h => exact h
      | one => exact hc.one_mem
      | mul x y _ _ hx hy => exact hcl _ hx _ hy
    have hsetle : (Submonoid.closure {g | g ∈ σ.S} : Set (Mat K d)) ⊆ (σ.S.toFinset : Set (Mat K d)) := by
      intro x hx; simpa using hclos x hx
    have hf : (Submonoid.closure {g | g ∈ σ.S} : Set (Mat K d)).Finite := (Finset.finite_toSet _).subset hsetle
    obtain ⟨τ, hτ⟩ := fromGenerator_succeeds (inv := σ.inversion) hne hc.det hf (by
      refine lt_of_le_of_lt (Set.ncard_le_ncard hsetle (Finset.finite_toSet _)) ?_
      rw [Set.ncard_coe_finset]
      exact lt_of_le_of_lt (List.toFinset_card_le _) hlen)
    rw [hτ]
    simp only [Except.ok.injEq]
    obtain ⟨S, hS, -, -, hSnd, -, hGS, -, -, hScl⟩ := fromGenerator_ok hτ
    have hperm : σ.S.Perm S := (List.perm_ext_iff_of_nodup hnd hSnd).2
      fun a => ⟨hGS a, fun ha => hclos a (hScl a ha)⟩
    -- the constructor leaves `S` as it is
    obtain ⟨a1, a2, a3, a4⟩ := (mkSym_fix_iff (S := σ.S) (inv := σ.inversion)).1 hc.fix
    have hhead : S.head? = some 1 := (mkSym_cases hS).1
    have hnegiff : (∀ s ∈ S, -s ∈ S) ↔ (∀ s ∈ σ.S, -s ∈ σ.S) := by
      constructor
      · intro h s hs; exact hperm.mem_iff.2 (h s (hperm.mem_iff.1 hs))
      · intro h s hs; exact hperm.mem_iff.1 (h s (hperm.mem_iff.2 hs))
    have hfix : mkSym S σ.inversion = .ok ⟨S, σ.inversion⟩ := mkSym_fix_iff.2
      ⟨hhead, fun s hs => a2 s (hperm.mem_iff.2 hs), fun h => a3 (hnegiff.1 h), fun h => a4 (fun h' => h (hnegiff.2 h'))⟩
    rw [hS] at hfix
    cases Except.ok.inj hfix
    exact (C17_equality σ ⟨S, σ.inversion⟩ hnd).2 rfl hperm

example : (⟨[1, rot4, -1, -rot4], false⟩ : Sym ℚ 2).check = .ok true ∧
    (⟨[1, rot4, -1], false⟩ : Sym ℚ 2).check = .ok false := by decide +kernel

/-- **C17** (boundary) With repeated operations both comparisons are unreliable: a list that is not closed passes
`check()`, and it compares equal to the three element group although it lacks one of its operations. -/
theorem C17_duplicates_defect : ∃ σ τ : Sym ℚ 3, mkSym [1, cyc3, cyc3] false = .ok σ ∧
    fromGenerator [cyc3] false = .ok τ ∧ σ.check = .ok true ∧ σ.eq τ = true ∧
    (∃ a ∈ σ.ops, ∃ b ∈ σ.ops, a * b ∉ σ.ops) ∧ (∃ a ∈ τ.ops, a ∉ σ.ops) := by
  refine ⟨⟨[1, cyc3, cyc3], false⟩, ⟨[1, cyc3, cyc3 * cyc3], false⟩, by decide +kernel, by decide +kernel,
    by decide +kernel, by decide +kernel, ⟨cyc3, by decide +kernel, cyc3, by decide +kernel, by decide +kernel⟩,
    ⟨cyc3 * cyc3, by decide +kernel, by decide +kernel⟩⟩

end TB
