import Mathlib.LinearAlgebra.Matrix.Trace
import Mathlib.LinearAlgebra.Matrix.NonsingularInverse
import Mathlib.Tactic.LinearCombination
import Mathlib.Tactic.Abel
import Mathlib.Data.List.GetD
import Verif.Lemmas.UnitaryRep
import Verif.Spec.Representation

/-! Helper lemmas for group means over a unitary representation. -/

set_option linter.unusedSectionVars false

namespace TB.UR
open Spec Matrix

variable {K : Type} [Field K] [LinearOrder K] [IsStrictOrderedRing K] {d : ℕ}
variable {F : Type} [Field F] [StarRing F] [DecidableEq F] {N : ℕ}

/-! ### Blocks -/

theorem invOp_mul_self (k : ℕ) : invOp (F := F) N k * invOp N k = 1 := by
  unfold invOp
  rw [Matrix.diagonal_mul_diagonal, ← Matrix.diagonal_one]
  congr 1
  funext i
  by_cases h : i.val < k <;> simp [h]

theorem invOp_conjTranspose (k : ℕ) : (invOp (F := F) N k).conjTranspose = invOp N k := by
  unfold invOp
  rw [Matrix.diagonal_conjTranspose]
  congr 1
  funext i
  by_cases h : i.val < k <;> simp [h]

theorem flipBlocks_eq (k : ℕ) (p : Mat F N) : flipBlocks k p = invOp N k * p * invOp N k := by
  ext i j
  unfold invOp flipBlocks
  rw [Matrix.mul_diagonal, Matrix.diagonal_mul]
  by_cases h : i.val < k <;> by_cases h' : j.val < k <;> simp [h, h']

theorem zeroBlocks_eq [CharZero F] (k : ℕ) (p : Mat F N) :
    zeroBlocks k p = (2 : F)⁻¹ • (p + invOp N k * p * invOp N k) := by
  rw [← flipBlocks_eq]
  ext i j
  rw [Matrix.smul_apply, Matrix.add_apply, smul_eq_mul]
  simp only [flipBlocks, zeroBlocks]
  have h2 : (2 : F) ≠ 0 := two_ne_zero
  by_cases h : i.val < k <;> by_cases h' : j.val < k <;> simp [h, h'] <;> rw [← two_mul, inv_mul_cancel_left₀ h2]

theorem commute_of_parity {k : ℕ} {u : Mat F N}
    (h : ∀ a b : Fin N, ¬ (a.val < k ↔ b.val < k) → u a b = 0) : invOp N k * u = u * invOp N k := by
  ext a b
  unfold invOp
  rw [Matrix.diagonal_mul, Matrix.mul_diagonal]
  by_cases ha : a.val < k <;> by_cases hb : b.val < k
  · simp [ha, hb]
  · rw [h a b (by tauto)]; simp
  · rw [h a b (by tauto)]; simp
  · simp [ha, hb]

/-! ### The group of pairs -/

/-- The set of pairs (operation, matrix) of a unitary representation. -/
structure PairGroup (Z : List (Mat K d × Mat F N)) : Prop where
  nodup : Z.Nodup
  one : (1, 1) ∈ Z
  mul : ∀ p ∈ Z, ∀ q ∈ Z, p * q ∈ Z
  det : ∀ p ∈ Z, IsUnit p.1.det
  unitary : ∀ p ∈ Z, p.2 * p.2.conjTranspose = 1

theorem PairGroup.unitary' {Z : List (Mat K d × Mat F N)} (h : PairGroup Z) {p} (hp : p ∈ Z) :
    p.2.conjTranspose * p.2 = 1 := mul_eq_one_comm.1 (h.unitary p hp)

theorem PairGroup.perm_mul {Z : List (Mat K d × Mat F N)} (h : PairGroup Z) {q} (hq : q ∈ Z) :
    (Z.map fun p => p * q).Perm Z := by
  have hinj : Function.Injective fun p : Mat K d × Mat F N => p * q := by
    intro a b hab
    have h1 : a.1 * q.1 = b.1 * q.1 := congrArg Prod.fst hab
    have h2 : a.2 * q.2 = b.2 * q.2 := congrArg Prod.snd hab
    refine Prod.ext ?_ ?_
    · have := congrArg (· * q.1⁻¹) h1
      simpa [mul_assoc, Matrix.mul_nonsing_inv _ (h.det q hq)] using this
    · have := congrArg (· * q.2.conjTranspose) h2
      simpa [mul_assoc, h.unitary q hq] using this
  have hnd : (Z.map fun p => p * q).Nodup := h.nodup.map hinj
  refine (hnd.subperm ?_).perm_of_length_le (by simp)
  intro x hx
  obtain ⟨p, hp, rfl⟩ := List.mem_map.1 hx
  exact h.mul p hp q hq

theorem PairGroup.inv_mem {Z : List (Mat K d × Mat F N)} (h : PairGroup Z) {q} (hq : q ∈ Z) :
    (q.1⁻¹, q.2.conjTranspose) ∈ Z := by
  obtain ⟨p, hp, he⟩ := List.mem_map.1 ((h.perm_mul hq).symm.subset h.one)
  have h1 : p.1 * q.1 = 1 := congrArg Prod.fst he
  have h2 : p.2 * q.2 = 1 := congrArg Prod.snd he
  have e1 : q.1⁻¹ = p.1 := Matrix.inv_eq_left_inv h1
  have e2 : q.2.conjTranspose = p.2 := by
    have := congrArg (· * q.2.conjTranspose) h2
    simpa [mul_assoc, h.unitary q hq] using this.symm
  rw [e1, e2]
  exact hp

theorem PairGroup.perm_inv {Z : List (Mat K d × Mat F N)} (h : PairGroup Z) :
    (Z.map fun p => (p.1⁻¹, p.2.conjTranspose)).Perm Z := by
  have hnd : (Z.map fun p => (p.1⁻¹, p.2.conjTranspose)).Nodup := by
    refine List.Nodup.map_on ?_ h.nodup
    intro a ha b hb hab
    simp only [Prod.mk.injEq] at hab
    refine Prod.ext ?_ (Matrix.conjTranspose_injective hab.2)
    have := congrArg (·⁻¹) hab.1
    simpa [Matrix.nonsing_inv_nonsing_inv _ (h.det a ha), Matrix.nonsing_inv_nonsing_inv _ (h.det b hb)] using this
  refine (hnd.subperm ?_).perm_of_length_le (by simp)
  intro x hx
  obtain ⟨p, hp, rfl⟩ := List.mem_map.1 hx
  exact h.inv_mem hp

theorem list_sum_mul {α : Type} (l : List α) (f : α → Mat F N) (a b : Mat F N) :
    (l.map fun x => a * f x * b).sum = a * (l.map f).sum * b := by
  induction l with
  | nil => simp
  | cons x l ih => simp [ih, mul_add, add_mul]

/-- The mean over the group of any function of the transformed position transforms covariantly. -/
theorem PairGroup.sum_covariant {Z : List (Mat K d × Mat F N)} (h : PairGroup Z) (f : (Fin d → K) → Mat F N)
    {q} (hq : q ∈ Z) (r : Fin d → K) :
    (Z.map fun p => p.2.conjTranspose * f (p.1.mulVec (q.1.mulVec r)) * p.2).sum =
      q.2 * (Z.map fun p => p.2.conjTranspose * f (p.1.mulVec r) * p.2).sum * q.2.conjTranspose := by
  have h1 : (Z.map fun p => p.2.conjTranspose * f (p.1.mulVec r) * p.2).sum =
      ((Z.map fun p => p * q).map fun p => p.2.conjTranspose * f (p.1.mulVec r) * p.2).sum :=
    ((h.perm_mul hq).map _).sum_eq.symm
  have h2 : ((Z.map fun p => p * q).map fun p => p.2.conjTranspose * f (p.1.mulVec r) * p.2) =
      Z.map fun p => q.2.conjTranspose * (p.2.conjTranspose * f (p.1.mulVec (q.1.mulVec r)) * p.2) * q.2 := by
    rw [List.map_map]
    refine List.map_congr_left fun p _ => ?_
    simp only [Function.comp, Prod.fst_mul, Prod.snd_mul, Matrix.conjTranspose_mul, Matrix.mulVec_mulVec, mul_assoc]
  rw [h1, h2, list_sum_mul]
  have hu := h.unitary q hq
  calc _ = (1 : Mat F N) * (Z.map fun p => p.2.conjTranspose * f (p.1.mulVec (q.1.mulVec r)) * p.2).sum * 1 := by simp
    _ = _ := by rw [← hu]; simp only [mul_assoc]

end TB.UR

namespace TB.UR
open Spec Matrix

variable {K : Type} [Field K] [LinearOrder K] [IsStrictOrderedRing K] {d : ℕ}
variable {F : Type} [Field F] [StarRing F] [DecidableEq F] {N : ℕ}

/-! ### The matrix that `symmetrize` reads at a position -/

/-- The value of `summand` where it is defined. -/
def val (k : ℕ) (inv : Bool) (ns : List (Fin d → K)) (H : List (Mat F N)) (x : Fin d → K) : Mat F N :=
  match summand k inv ns H x with
  | .ok p => p
  | .error _ => 0

theorem neighbor_ok {ns : List (Fin d → K)} {x : Fin d → K} (h : x ∈ ns ∨ -x ∈ ns) :
    ∃ jm, neighbor ns x = .ok jm := by
  unfold neighbor
  by_cases h1 : x ∈ ns
  · rw [if_pos h1]; exact ⟨_, rfl⟩
  · rw [if_neg h1, if_pos (by tauto)]; exact ⟨_, rfl⟩

theorem neighbor_error {ns : List (Fin d → K)} {x : Fin d → K} (h : ¬ (x ∈ ns ∨ -x ∈ ns)) :
    neighbor ns x = .error .valueError := by
  unfold neighbor
  rw [if_neg (by tauto), if_neg (by tauto)]

theorem summand_ok {k : ℕ} {inv : Bool} {ns : List (Fin d → K)} {H : List (Mat F N)} {x : Fin d → K}
    (h : x ∈ ns ∨ -x ∈ ns) : summand k inv ns H x = .ok (val k inv ns H x) := by
  obtain ⟨⟨j, m⟩, hj⟩ := neighbor_ok h
  unfold val summand
  rw [hj]
  simp only
  cases inv
  · rfl
  · simp only [if_true]
    by_cases h0 : x = 0
    · simp [h0]
    · cases m <;> simp [h0]

theorem summand_error {k : ℕ} {inv : Bool} {ns : List (Fin d → K)} {H : List (Mat F N)} {x : Fin d → K}
    (h : ¬ (x ∈ ns ∨ -x ∈ ns)) : summand k inv ns H x = .error .valueError := by
  unfold summand
  rw [neighbor_error h]

/-- The value at a listed position. -/
theorem val_mem {k : ℕ} {inv : Bool} {ns : List (Fin d → K)} {H : List (Mat F N)} {x : Fin d → K} (h : x ∈ ns) :
    val k inv ns H x = if inv = true ∧ x = 0 then zeroBlocks k (H.getD (ns.idxOf x) 0) else H.getD (ns.idxOf x) 0 := by
  unfold val summand neighbor
  rw [if_pos h]
  cases inv <;> by_cases h0 : x = 0 <;> simp [h0]

/-- The value at a position of which only the mirror image is listed. -/
theorem val_mirror {k : ℕ} {inv : Bool} {ns : List (Fin d → K)} {H : List (Mat F N)} {x : Fin d → K} (h : x ∉ ns)
    (h' : -x ∈ ns) :
    val k inv ns H x = if inv = true then flipBlocks k (H.getD (ns.idxOf (-x)) 0) else H.getD (ns.idxOf (-x)) 0 := by
  have h0 : x ≠ 0 := by rintro rfl; simp at h'; exact h h'
  unfold val summand neighbor
  rw [if_neg h, if_pos h']
  cases inv <;> simp [h0]

theorem flip_flip (k : ℕ) (p : Mat F N) : flipBlocks k (flipBlocks k p) = p := by
  ext i j
  simp only [flipBlocks]
  split_ifs <;> simp

theorem flip_zero (k : ℕ) (p : Mat F N) : flipBlocks k (zeroBlocks k p) = zeroBlocks k p := by
  ext i j
  simp only [flipBlocks, zeroBlocks]
  split_ifs <;> simp

theorem val_neg_inv {k : ℕ} {ns : List (Fin d → K)} {H : List (Mat F N)} {x : Fin d → K}
    (hpm : ∀ r ∈ ns, -r ∈ ns → r = 0) (h : x ∈ ns ∨ -x ∈ ns) :
    val k true ns H (-x) = flipBlocks k (val k true ns H x) := by
  by_cases h0 : x = 0
  · subst h0
    have : (0 : Fin d → K) ∈ ns := by simpa using h
    rw [neg_zero, val_mem this]
    simp [flip_zero]
  · rcases h with h | h
    · have hn : -x ∉ ns := fun hx => h0 (hpm x h hx)
      rw [val_mirror hn (by simpa using h), val_mem h]
      simp [h0]
    · have hn : x ∉ ns := fun hx => h0 (hpm x hx h)
      have h0' : -x ≠ 0 := by simpa using h0
      rw [val_mem h, val_mirror hn h]
      simp [h0, flip_flip]

theorem val_neg_noinv {k : ℕ} {ns : List (Fin d → K)} {H : List (Mat F N)} {x : Fin d → K}
    (hpm : ∀ r ∈ ns, -r ∈ ns → r = 0) (h : x ∈ ns ∨ -x ∈ ns) :
    val k false ns H (-x) = val k false ns H x := by
  by_cases h0 : x = 0
  · subst h0; simp
  · rcases h with h | h
    · have hn : -x ∉ ns := fun hx => h0 (hpm x h hx)
      rw [val_mirror hn (by simpa using h), val_mem h]
      simp
    · have hn : x ∉ ns := fun hx => h0 (hpm x hx h)
      rw [val_mem h, val_mirror hn h]
      simp

/-- The sum over the group at a position. -/
def gsum (Z : List (Mat K d × Mat F N)) (f : (Fin d → K) → Mat F N) (r : Fin d → K) : Mat F N :=
  (Z.map fun p => p.2.conjTranspose * f (p.1.mulVec r) * p.2).sum

theorem groupSum_ok {k : ℕ} {inv : Bool} {Z : List (Mat K d × Mat F N)} {ns : List (Fin d → K)} {H : List (Mat F N)}
    {r : Fin d → K} (h : ∀ p ∈ Z, p.1.mulVec r ∈ ns ∨ -(p.1.mulVec r) ∈ ns) :
    groupSum k inv Z ns H r = .ok (gsum Z (val k inv ns H) r) := by
  have key : ∀ (Z : List (Mat K d × Mat F N)), (∀ p ∈ Z, p.1.mulVec r ∈ ns ∨ -(p.1.mulVec r) ∈ ns) → ∀ acc : Mat F N,
      Z.foldlM (fun acc p =>
        match summand k inv ns H (p.1.mulVec r) with
        | .error e => .error e
        | .ok q => .ok (acc + p.2.conjTranspose * q * p.2)) acc =
        (Except.ok (acc + gsum Z (val k inv ns H) r) : Except Err (Mat F N)) := by
    intro Z
    induction Z with
    | nil => intro _ acc; simp [gsum, pure, Except.pure]
    | cons p Z ih =>
      intro hZ acc
      rw [List.foldlM_cons, summand_ok (hZ p (by simp))]
      simp only [bind, Except.bind]
      rw [ih fun q hq => hZ q (by simp [hq])]
      simp [gsum, add_assoc]
  have := key Z h 0
  rw [zero_add] at this
  exact this

theorem groupSum_error {k : ℕ} {inv : Bool} {Z : List (Mat K d × Mat F N)} {ns : List (Fin d → K)} {H : List (Mat F N)}
    {r : Fin d → K} (h : ¬ ∀ p ∈ Z, p.1.mulVec r ∈ ns ∨ -(p.1.mulVec r) ∈ ns) :
    groupSum k inv Z ns H r = .error .valueError := by
  have key : ∀ (Z : List (Mat K d × Mat F N)), (¬ ∀ p ∈ Z, p.1.mulVec r ∈ ns ∨ -(p.1.mulVec r) ∈ ns) → ∀ acc : Mat F N,
      Z.foldlM (fun acc p =>
        match summand k inv ns H (p.1.mulVec r) with
        | .error e => .error e
        | .ok q => .ok (acc + p.2.conjTranspose * q * p.2)) acc =
        (Except.error .valueError : Except Err (Mat F N)) := by
    intro Z
    induction Z with
    | nil => intro h; simp at h
    | cons p Z ih =>
      intro hZ acc
      rw [List.foldlM_cons]
      by_cases hp : p.1.mulVec r ∈ ns ∨ -(p.1.mulVec r) ∈ ns
      · rw [summand_ok hp]
        simp only [bind, Except.bind]
        refine ih (fun h => hZ ?_) _
        intro q hq
        rcases List.mem_cons.1 hq with rfl | hq
        · exact hp
        · exact h q hq
      · rw [summand_error hp]
        rfl
  exact key Z h 0

theorem mapM_ok {α β : Type} {f : α → Except Err β} {g : α → β} {l : List α} (h : ∀ x ∈ l, f x = .ok (g x)) :
    l.mapM f = .ok (l.map g) := by
  induction l with
  | nil => rfl
  | cons a l ih =>
    rw [List.mapM_cons, h a (by simp), ih fun x hx => h x (by simp [hx])]
    rfl

theorem mapM_error {α β : Type} {f : α → Except Err β} {e : Err} {l : List α} (h : ∀ x ∈ l, ∀ e', f x = .error e' → e' = e)
    (hx : ∃ x ∈ l, ∀ y, f x ≠ .ok y) : l.mapM f = .error e := by
  induction l with
  | nil => simp at hx
  | cons a l ih =>
    rw [List.mapM_cons]
    cases hf : f a with
    | error e' =>
      rw [h a (by simp) e' hf]; rfl
    | ok y =>
      have : ∃ x ∈ l, ∀ y, f x ≠ .ok y := by
        obtain ⟨x, hx, hy⟩ := hx
        rcases List.mem_cons.1 hx with rfl | hx
        · exact absurd hf (hy y)
        · exact ⟨x, hx, hy⟩
      rw [ih (fun x hx => h x (by simp [hx])) this]; rfl

end TB.UR
