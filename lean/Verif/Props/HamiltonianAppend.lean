import Verif.Props.HamiltonianSymmetryEx
import Verif.Props.NamedReps

/-!
# Property C95: `append` and the methods that append orbitals
-/

set_option linter.unusedSectionVars false

namespace TB.HS

open Matrix TB.UR TB.Spec

variable {K : Type} [Field K] [LinearOrder K] [IsStrictOrderedRing K] {d N : ℕ}
variable {F : Type} [Field F] [StarRing F] [DecidableEq F]

/-! ## Specification -/

/-- The functions `φ` (orbitals at one place) transform with the matrix `u` under the operation `s`: the turned function
`r ↦ φ_j (s⁻¹ r)` is `∑ i, u i j φ_i`. -/
def Transforms (φ : Fin N → (Fin d → K) → F) (s : Mat K d) (u : Mat F N) : Prop :=
  ∀ (r : Fin d → K) (j : Fin N), φ j (s⁻¹.mulVec r) = ∑ i, u i j * φ i r

/-- An entry given by the matrix `f s` for each operation `s` and the parity. -/
def newOrb (h : HSym K F d) (N : ℕ) (f : Mat K d → Mat F N) (k : ℕ) (pos : Fin d → K) (name : String) : Orb K F d :=
  ⟨N, ⟨h.sym, h.sym.S.map f, k⟩, pos, name⟩

/-- The object after this entry was appended. -/
def appended (h : HSym K F d) (N : ℕ) (f : Mat K d → Mat F N) (k : ℕ) (pos : Fin d → K) (name : String) : HSym K F d :=
  ⟨h.sym, h.orbs ++ [newOrb h N f k pos name]⟩

/-! ## `append` -/

theorem copy_constructed {σ : Sym K d} (h : σ.Constructed) : σ.copy = .ok σ := h.fix

theorem repCopy_constructed {ρ : Rep K F d N} (h : ρ.sym.Constructed) : ρ.copy = .ok ρ := by
  unfold Rep.copy
  rw [copy_constructed h]

/-- **C95** A new object for a constructed symmetry is valid; it has no representations and dimension 0. -/
theorem C95_init (σ : Sym K d) (hσ : σ.Constructed) :
    Valid (HSym.init σ : HSym K F d) ∧ (HSym.init σ : HSym K F d).dim = 0 := by
  refine ⟨⟨hσ, fun o ho => ?_⟩, rfl⟩
  simp [HSym.init] at ho

/-- **C95** `append` accepts exactly the representations with uniform parity whose symmetry has the same inversion flag and the
same operations in any order; the new entry carries the symmetry of the object and the same pairs of operation and matrix.
All others raise `ValueError` and leave the object unchanged. -/
theorem C95_append (h : HSym K F d) (ρ : Rep K F d N) (pos : Fin d → K) (name : String) (hρ : ρ.sym.Constructed)
    (hl : ρ.sym.S.length = ρ.U.length) (hnd : ρ.sym.S.Nodup) :
    ((ρ.invSplit = 0 ∨ ρ.invSplit = N) ∧ h.sym.inversion = ρ.sym.inversion ∧ h.sym.S.Perm ρ.sym.S ∧
      ∃ U, h.append ρ pos name = (⟨h.sym, h.orbs ++ [⟨N, ⟨h.sym, U, ρ.invSplit⟩, pos, name⟩]⟩, .ok ()) ∧
        U.length = h.sym.S.length ∧ (h.sym.S.zip U).Perm (ρ.sym.S.zip ρ.U)) ∨
    (¬ ((ρ.invSplit = 0 ∨ ρ.invSplit = N) ∧ h.sym.inversion = ρ.sym.inversion ∧ h.sym.S.Perm ρ.sym.S) ∧
      h.append ρ pos name = (h, .error .valueError)) := by
  unfold HSym.append
  by_cases hk : ρ.invSplit = 0 ∨ ρ.invSplit = N
  · rw [if_neg (not_not.2 hk), repCopy_constructed hρ]
    rcases C80_match_sym ρ h.sym hl hnd (List.ne_nil_of_mem hρ.one_mem) with ⟨⟨h1, h2⟩, U, h3, h4, h5⟩ | ⟨h1, h2⟩
    · exact Or.inl ⟨hk, h1, h2, U, by simp only [h3], h4, h5⟩
    · refine Or.inr ⟨fun h3 => h1 h3.2, by simp only [h2]⟩
  · exact Or.inr ⟨fun h3 => hk h3.1, by rw [if_pos hk]⟩

/-- **C95** Appending a unitary representation keeps the object valid and adds its dimension. -/
theorem C95_append_valid (h : HSym K F d) (hv : Valid h) (ρ : Rep K F d N) (pos : Fin d → K) (name : String)
    (hρ : ρ.sym.Constructed) (hr : IsRep ρ) (hu : IsUnitary ρ) (h' : HSym K F d) (ha : h.append ρ pos name = (h', .ok ())) :
    Valid h' ∧ h'.sym = h.sym ∧ h'.dim = h.dim + N := by
  rcases C95_append h ρ pos name hρ hr.len hr.nodup with ⟨h1, h2, h3, U, h4, h5, h6⟩ | ⟨-, h4⟩
  · rw [h4] at ha
    obtain ⟨rfl, -⟩ := Prod.mk.inj ha
    have hU : ∀ u ∈ U, u ∈ ρ.U := by
      intro u hu
      have : u ∈ (h.sym.S.zip U).map Prod.snd := by rw [List.map_snd_zip (by rw [h5])]; exact hu
      obtain ⟨p, hp, rfl⟩ := List.mem_map.1 this
      exact (List.of_mem_zip (h6.mem_iff.1 hp)).2
    refine ⟨⟨hv.sym, fun o ho => ?_⟩, rfl, by simp [HSym.dim]⟩
    rcases List.mem_append.1 ho with ho | ho
    · exact hv.rep o ho
    · rw [List.mem_singleton] at ho
      subst ho
      refine ⟨⟨h5.symm, (h3.nodup_iff).2 hr.nodup, h6.mem_iff.2 hr.one, fun p hp q hq => ?_, fun hi u hu => ?_, hr.split⟩,
        fun u hu' => hu u (hU u hu'), rfl, h1⟩
      · exact h6.mem_iff.2 (hr.mul p (h6.mem_iff.1 hp) q (h6.mem_iff.1 hq))
      · exact hr.parity (by rw [← h2]; exact hi) u (hU u hu)
  · rw [h4] at ha
    cases ha

theorem zip_map_eq {α β : Type} {S : List α} {U : List β} {f : α → β} (hl : U.length = S.length)
    (h : ∀ p ∈ S.zip U, p.2 = f p.1) : U = S.map f := by
  induction S generalizing U with
  | nil => simpa using hl
  | cons s S ih =>
    cases U with
    | nil => simp at hl
    | cons u U =>
      rw [List.map_cons, ← h (s, u) (by simp), ← ih (by simpa using hl) fun p hp => h p (by simp [hp])]

/-- Appending the representation that a multiplicative function gives. -/
theorem append_fun {h : HSym K F d} (hv : Valid h) (hG : GroupS h) (f : Mat K d → Mat F N) {k : ℕ} (hk : k = 0 ∨ k = N)
    (h1 : f 1 = 1) (hm : ∀ a ∈ h.sym.S, ∀ b ∈ h.sym.S, f (a * b) = f a * f b)
    (hu : ∀ s ∈ h.sym.S, f s * (f s).conjTranspose = 1) (pos : Fin d → K) (name : String) :
    h.append ⟨h.sym, h.sym.S.map f, k⟩ pos name = (appended h N f k pos name, .ok ()) ∧
      Valid (appended h N f k pos name) := by
  have key : h.append ⟨h.sym, h.sym.S.map f, k⟩ pos name = (appended h N f k pos name, .ok ()) := by
    rcases C95_append h ⟨h.sym, h.sym.S.map f, k⟩ pos name hv.sym (by simp) hG.1 with ⟨-, -, -, U, h4, h5, h6⟩ | ⟨h4, -⟩
    · rw [h4, zip_map_eq h5 fun p hp => ((mem_zip_map_self _ _ p).1 (h6.mem_iff.1 hp)).2]
      rfl
    · exact absurd ⟨hk, rfl, List.Perm.refl _⟩ h4
  refine ⟨key, (C95_append_valid h hv ⟨h.sym, h.sym.S.map f, k⟩ pos name hv.sym ?_ ?_ _ key).1⟩
  · refine ⟨by simp, hG.1, (mem_zip_map_self _ _ _).2 ⟨hv.sym.one_mem, h1.symm⟩, fun p hp q hq => ?_, fun _ u _ a b hab => ?_,
      by simp only; omega⟩
    · rw [mem_zip_map_self] at hp hq ⊢
      exact ⟨hG.2 _ hp.1 _ hq.1, by simp only; rw [hp.2, hq.2, hm _ hp.1 _ hq.1]⟩
    · exfalso
      simp only at hab
      rcases hk with hk | hk <;> rw [hk] at hab
      · simp at hab
      · exact hab ⟨fun _ => b.2, fun _ => a.2⟩
  · intro u hu'
    obtain ⟨s, hs, rfl⟩ := List.mem_map.1 hu'
    exact hu s hs

/-! ## s and p orbitals -/

/-- **C95** `append_s` appends one even function that every operation leaves unchanged: the constant function. -/
theorem C95_append_s (h : HSym K F d) (hv : Valid h) (hG : GroupS h) (pos : Fin d → K) (name : String) :
    h.appendS pos name = (appended h 1 (fun _ => 1) 1 pos name, .ok ()) ∧ Valid (appended h 1 (fun _ => 1) 1 pos name) ∧
      (∀ s c, Transforms (fun (_ : Fin 1) (_ : Fin d → K) => (c : F)) s 1) ∧
      paritySign (newOrb h 1 (fun _ => 1) 1 pos name) = 1 := by
  obtain ⟨h1, h2⟩ := append_fun hv hG (fun _ => (1 : Mat F 1)) (Or.inr rfl) rfl (by simp) (by simp) pos name
  refine ⟨h1, h2, fun s c r j => ?_, by simp [paritySign, newOrb]⟩
  rw [Subsingleton.elim j 0]
  simp

/-- The operations are orthogonal matrices. -/
def OrthogonalS (h : HSym K F d) : Prop := ∀ s ∈ h.sym.S, s * s.transpose = 1

theorem map_star {ι : K →+* F} (hι : ∀ x, star (ι x) = ι x) (s : Mat K d) : (s.map ι).conjTranspose = s.transpose.map ι := by
  ext i j
  simp [hι]

theorem map_unitary {ι : K →+* F} (hι : ∀ x, star (ι x) = ι x) {s : Mat K d} (hs : s * s.transpose = 1) :
    s.map ι * (s.map ι).conjTranspose = 1 := by
  rw [map_star hι, ← Matrix.map_mul, hs]
  simp

/-- **C95** `append_p` appends odd functions that transform like the coordinates. -/
theorem C95_append_p (ι : K →+* F) (hι : ∀ x, star (ι x) = ι x) (h : HSym K F d) (hv : Valid h) (hG : GroupS h)
    (hO : OrthogonalS h) (pos : Fin d → K) (name : String) :
    h.appendP ι pos name = (appended h d (fun s => s.map ι) 0 pos name, .ok ()) ∧
      Valid (appended h d (fun s => s.map ι) 0 pos name) ∧
      (∀ s ∈ h.sym.S, Transforms (fun i r => ι (r i)) s (s.map ι)) ∧
      Transforms (fun i r => ι (r i)) (-1 : Mat K d) (paritySign (newOrb h d (fun s => s.map ι) 0 pos name) • 1) := by
  obtain ⟨h1, h2⟩ := append_fun hv hG (fun s => s.map ι) (Or.inl rfl) (by simp) (fun a _ b _ => Matrix.map_mul)
    (fun s hs => map_unitary hι (hO s hs)) pos name
  have hinv : (-1 : Mat K d)⁻¹ = -1 := Matrix.inv_eq_right_inv (by simp)
  refine ⟨h1, h2, fun s hs r j => ?_, fun r j => by
    simp [hinv, Matrix.neg_mulVec, paritySign, newOrb, Matrix.one_apply]⟩
  have : s⁻¹ = s.transpose := Matrix.inv_eq_right_inv (hO s hs)
  rw [this]
  simp [Matrix.mulVec, dotProduct]

theorem det_sq {s : Mat K d} (hs : s * s.transpose = 1) : s.det * s.det = 1 := by
  have := congrArg Matrix.det hs
  rwa [Matrix.det_mul, Matrix.det_transpose, Matrix.det_one] at this

/-- **C95** `append_d3` appends even functions with the matrices `s / det s`; this is a unitary representation (but see
`C95_defect_d3`). -/
theorem C95_append_d3 (ι : K →+* F) (hι : ∀ x, star (ι x) = ι x) (h : HSym K F d) (hv : Valid h) (hG : GroupS h)
    (hO : OrthogonalS h) (pos : Fin d → K) (name : String) :
    h.appendD3 ι pos name = (appended h d (fun s => (s.det⁻¹ • s).map ι) d pos name, .ok ()) ∧
      Valid (appended h d (fun s => (s.det⁻¹ • s).map ι) d pos name) := by
  refine append_fun hv hG (fun s => (s.det⁻¹ • s).map ι) (Or.inr rfl) (by simp) (fun a _ b _ => ?_) (fun s hs => ?_) pos name
  · rw [← Matrix.map_mul, Matrix.det_mul, mul_inv, Matrix.smul_mul, Matrix.mul_smul, smul_smul]
  · refine map_unitary hι ?_
    have h1 := det_sq (hO s hs)
    rw [Matrix.transpose_smul, Matrix.smul_mul, Matrix.mul_smul, smul_smul, hO s hs, ← mul_inv, h1]
    simp

/-! ## d orbitals -/

/-- The functions `2z² - x² - y²` and `√3 (x² - y²)`. -/
def egFun (w : F) : Fin 2 → (Fin 3 → ℚ) → F :=
  ![fun r => ((2 * r 2 ^ 2 - r 0 ^ 2 - r 1 ^ 2 : ℚ) : F), fun r => w * ((r 0 ^ 2 - r 1 ^ 2 : ℚ) : F)]

/-- The functions `yz`, `xz`, `xy`. -/
def t2gFun : Fin 3 → (Fin 3 → ℚ) → ℚ := ![fun r => r 1 * r 2, fun r => r 0 * r 2, fun r => r 0 * r 1]

/-- A signed permutation permutes the squares of the coordinates. -/
theorem sq_mulVec {s : Mat ℚ 3} (hs : Named.Spec.SignedPerm s) (r : Fin 3 → ℚ) (j : Fin 3) :
    (s.transpose.mulVec r j) ^ 2 = ∑ i, s i j ^ 2 * r i ^ 2 := by
  obtain ⟨k, hk, hk'⟩ := hs.col j
  have h0 : ∀ k', k' ≠ k → s k' j = 0 := fun k' h => by
    by_contra hne
    exact h (hk' k' hne)
  rw [Finset.sum_eq_single k (fun k' _ h => by rw [h0 k' h]; ring) (by simp)]
  have : s.transpose.mulVec r j = s k j * r k := by
    simp only [Matrix.mulVec, dotProduct, Matrix.transpose_apply]
    exact Finset.sum_eq_single k (fun k' _ h => by rw [h0 k' h]; ring) (by simp)
  rw [this]
  ring

theorem squares_col [CharZero F] {a : Mat ℚ 3} (ha : Named.Spec.SignedPerm a) (j : Fin 3) :
    squares F a 0 j + squares F a 1 j + squares F a 2 j = 1 := by
  obtain ⟨k, hk, hk'⟩ := ha.col j
  have h0 : ∀ k', k' ≠ k → a k' j = 0 := fun k' h => by
    by_contra hne
    exact h (hk' k' hne)
  have h1 : ∑ i, squares F a i j = 1 := by
    rw [Finset.sum_eq_single k (fun k' _ hne => by simp [squares, h0 k' hne]) (by simp)]
    simp only [squares, Matrix.of_apply]
    rcases ha.entries k j with h1 | h1 | h1
    · exact absurd h1 hk
    · simp [h1]
    · simp [h1]
  rwa [Fin.sum_univ_three] at h1

theorem d3_constructed {negate inversion : Bool} {w : F} {ρ : Rep ℚ F 3 2} (h : d3 negate inversion w = .ok ρ) :
    ρ.sym.Constructed := by
  unfold d3 UR.fromGenerator at h
  split_ifs at h
  all_goals
    split at h
    · cases h
    · split at h
      · cases h
      · rename_i σ hσ
        cases h
        exact ⟨_, _, hσ⟩

theorem eg_transforms [CharZero F] {w : F} (hw : w * w = 3) {s : Mat ℚ 3} (hs : IsCubeRotation s) :
    Transforms (egFun w) s (egMatrix w (squares F s)) := by
  intro r j
  have hinv : s⁻¹ = s.transpose := Matrix.inv_eq_right_inv (rot_orth hs).1
  have q : ∀ j, (((s⁻¹.mulVec r) j ^ 2 : ℚ) : F) =
      squares F s 0 j * ((r 0 ^ 2 : ℚ) : F) + squares F s 1 j * ((r 1 ^ 2 : ℚ) : F) + squares F s 2 j * ((r 2 ^ 2 : ℚ) : F) := by
    intro j
    rw [hinv, sq_mulVec hs.1, Fin.sum_univ_three]
    simp only [squares, Matrix.of_apply]
    push_cast
    ring
  have hr := squares_row (F := F) hs.1
  have hc := squares_col (F := F) hs.1
  have e02 : squares F s 0 2 = 1 - squares F s 0 0 - squares F s 0 1 := by linear_combination hr 0
  have e12 : squares F s 1 2 = 1 - squares F s 1 0 - squares F s 1 1 := by linear_combination hr 1
  have e20 : squares F s 2 0 = 1 - squares F s 0 0 - squares F s 1 0 := by linear_combination hc 0
  have e21 : squares F s 2 1 = 1 - squares F s 0 1 - squares F s 1 1 := by linear_combination hc 1
  have e22 : squares F s 2 2 = 1 - squares F s 2 0 - squares F s 2 1 := by linear_combination hr 2
  have q0 := q 0
  have q1 := q 1
  have q2 := q 2
  rw [e22] at q2
  rw [e02, e12] at q2
  rw [e20] at q0 q2
  rw [e21] at q1 q2
  push_cast at q0 q1 q2
  rw [egMatrix_eq, e22, e02, e12, e20, e21, Fin.sum_univ_two]
  fin_cases j
  · simp only [egFun, Fin.zero_eta, Matrix.cons_val_zero, Matrix.cons_val_one, Matrix.of_apply, Matrix.cons_val_fin_one]
    push_cast
    rw [q0, q1, q2]
    linear_combination (-(-squares F s 0 0 - squares F s 0 1 + 2 * (1 - squares F s 0 0 - squares F s 0 1) -
      (-squares F s 1 0 - squares F s 1 1 + 2 * (1 - squares F s 1 0 - squares F s 1 1))) * ((r 0 : F) ^ 2 - (r 1 : F) ^ 2) / 6) * hw
  · simp only [egFun, Fin.mk_one, Matrix.cons_val_zero, Matrix.cons_val_one, Matrix.of_apply, Matrix.cons_val_fin_one]
    push_cast
    rw [q0, q1]
    ring

/-- **C95** `append_d2`: if the operations are exactly the rotations of the cube, it appends two even functions that transform
like `2z² - x² - y²` and `√3 (x² - y²)`. -/
theorem C95_append_d2 [CharZero F] (w : F) (hw : w * w = 3) (hws : star w = w) (h : HSym ℚ F 3) (hv : Valid h)
    (hnd : h.sym.S.Nodup) (hS : ∀ s, s ∈ h.sym.S ↔ IsCubeRotation s) (pos : Fin 3 → ℚ) (name : String) :
    h.appendD2 w pos name = (appended h 2 (fun s => egMatrix w (squares F s)) 2 pos name, .ok ()) ∧
      Valid (appended h 2 (fun s => egMatrix w (squares F s)) 2 pos name) ∧
      (∀ s ∈ h.sym.S, Transforms (egFun w) s (egMatrix w (squares F s))) ∧
      Transforms (egFun w) (-1) (paritySign (newOrb h 2 (fun s => egMatrix w (squares F s)) 2 pos name) • 1) := by
  obtain ⟨ρ, h1, h2, h3, h4, h5, h6⟩ := C90_d3 w hw hws false h.sym.inversion
  have hmem : ∀ s, s ∈ ρ.sym.S ↔ IsCubeRotation s := by
    intro s
    constructor
    · intro hs
      have : s ∈ (ρ.sym.S.zip ρ.U).map Prod.fst := by rw [List.map_fst_zip (by rw [h2.len])]; exact hs
      obtain ⟨p, hp, rfl⟩ := List.mem_map.1 this
      exact ((h5 p.1 p.2).1 hp).1
    · intro hs
      exact (List.of_mem_zip ((h5 s _).2 ⟨hs, rfl⟩)).1
  have hperm : h.sym.S.Perm ρ.sym.S := (List.perm_ext_iff_of_nodup hnd h2.nodup).2 fun s => by rw [hS, hmem]
  have hc : ρ.sym.Constructed := d3_constructed h1
  have ha : h.appendD2 w pos name = h.append ρ pos name := by unfold HSym.appendD2; rw [h1]
  have key : h.append ρ pos name = (appended h 2 (fun s => egMatrix w (squares F s)) 2 pos name, .ok ()) := by
    rcases C95_append h ρ pos name hc h2.len h2.nodup with ⟨-, -, -, U, b1, b2, b3⟩ | ⟨b1, -⟩
    · rw [b1, zip_map_eq (f := fun s => egMatrix w (squares F s)) b2 fun p hp => ((h5 p.1 p.2).1 (b3.mem_iff.1 hp)).2, h6]
      rfl
    · exact absurd ⟨Or.inr h6, h4.symm, hperm⟩ b1
  refine ⟨by rw [ha, key], (C95_append_valid h hv ρ pos name hc h2 h3 _ key).1, fun s hs => eg_transforms hw ((hS s).1 hs), ?_⟩
  have hinv : (-1 : Mat ℚ 3)⁻¹ = -1 := Matrix.inv_eq_right_inv (by simp)
  intro r j
  rw [hinv, Matrix.neg_mulVec, Matrix.one_mulVec, Fin.sum_univ_two]
  fin_cases j <;> simp [egFun, paritySign, newOrb]

/-- **C95** `append_d2` with any other operations raises `ValueError` and leaves the object unchanged. -/
theorem C95_append_d2_other [CharZero F] (w : F) (hw : w * w = 3) (hws : star w = w) (h : HSym ℚ F 3)
    (hS : ¬ (h.sym.S.Nodup ∧ ∀ s, s ∈ h.sym.S ↔ IsCubeRotation s)) (pos : Fin 3 → ℚ) (name : String) :
    h.appendD2 w pos name = (h, .error .valueError) := by
  obtain ⟨ρ, h1, h2, h3, h4, h5, h6⟩ := C90_d3 w hw hws false h.sym.inversion
  have hmem : ∀ s, s ∈ ρ.sym.S ↔ IsCubeRotation s := by
    intro s
    constructor
    · intro hs
      have : s ∈ (ρ.sym.S.zip ρ.U).map Prod.fst := by rw [List.map_fst_zip (by rw [h2.len])]; exact hs
      obtain ⟨p, hp, rfl⟩ := List.mem_map.1 this
      exact ((h5 p.1 p.2).1 hp).1
    · intro hs
      exact (List.of_mem_zip ((h5 s _).2 ⟨hs, rfl⟩)).1
  have hc : ρ.sym.Constructed := d3_constructed h1
  unfold HSym.appendD2
  rw [h1]
  rcases C95_append h ρ pos name hc h2.len h2.nodup with ⟨-, -, b0, -⟩ | ⟨-, b1⟩
  · exact absurd ⟨b0.nodup_iff.2 h2.nodup, fun s => by rw [b0.mem_iff, hmem]⟩ hS
  · exact b1

/-! ## The functions yz, xz, xy -/

theorem transforms_mul {φ : Fin N → (Fin d → K) → F} {s t : Mat K d} {u v : Mat F N} (h1 : Transforms φ s u)
    (h2 : Transforms φ t v) : Transforms φ (s * t) (u * v) := by
  intro r j
  rw [Matrix.mul_inv_rev, ← Matrix.mulVec_mulVec, h2]
  simp only [h1 r, Matrix.mul_apply, Finset.mul_sum, Finset.sum_mul]
  rw [Finset.sum_comm]
  exact Finset.sum_congr rfl fun i _ => Finset.sum_congr rfl fun k _ => by ring

theorem transforms_one (φ : Fin N → (Fin d → K) → F) : Transforms φ 1 1 := by
  intro r j
  simp [Matrix.one_apply]

theorem turns_t2g : ∀ t ∈ turns, Transforms t2gFun t (axisSign t • t) := by
  intro t ht r j
  have hinv : t⁻¹ = t.transpose := Matrix.inv_eq_right_inv (rot_orth (turns_rot t ht)).1
  rw [hinv]
  simp only [turns, List.mem_cons, List.not_mem_nil, or_false] at ht
  have e : ∀ t ∈ turns, axisSign t = -1 := by
    have : turns.all (fun t => decide (axisSign t = -1)) = true := by decide +kernel
    exact fun t ht => of_decide_eq_true (List.all_eq_true.1 this t ht)
  rw [e t (by simpa [turns] using ht)]
  rcases ht with rfl | rfl | rfl <;> fin_cases j <;>
    simp [t2gFun, Matrix.mulVec, dotProduct, Fin.sum_univ_three, Matrix.transpose_apply, mul_comm]

/-- **C95** The functions `yz, xz, xy` transform under a rotation `s` of the cube with the matrix of `s` times the sign of the
permutation of the axes. -/
theorem C95_t2g (s : Mat ℚ 3) (hs : IsCubeRotation s) : Transforms t2gFun s (axisSign s • s) := by
  obtain ⟨n, hn⟩ := rot_words hs
  clear hs
  induction n generalizing s with
  | zero =>
    rw [words, List.mem_singleton] at hn
    subst hn
    rw [axisSign_one, one_smul]
    exact transforms_one _
  | succ n ih =>
    obtain ⟨t, ht, hx⟩ := List.mem_flatMap.1 hn
    obtain ⟨x, hx', rfl⟩ := List.mem_map.1 hx
    have := transforms_mul (turns_t2g t ht) (ih x hx')
    rwa [Matrix.smul_mul, Matrix.mul_smul, smul_smul, ← axisSign_mul (turns_rot t ht)] at this

/-- **C95** `append_d3` is therefore right for operations that permute the axes evenly. -/
theorem C95_append_d3_even (s : Mat ℚ 3) (hs : IsCubeRotation s) (he : axisSign s = 1) :
    Transforms t2gFun s ((s.det⁻¹ • s).map (RingHom.id ℚ)) := by
  have h1 := C95_t2g s hs
  rw [he, one_smul] at h1
  rw [hs.2, inv_one, one_smul]
  simpa using h1

/-- A quarter turn about `z`. -/
def rz4 : Mat ℚ 3 := !![0, -1, 0; 1, 0, 0; 0, 0, 1]

/-- The symmetry with the quarter turns about `z`. -/
def exC4 : HSym ℚ ℚ 3 := HSym.init ⟨[1, rz4, rz4 * rz4, rz4 * rz4 * rz4], false⟩

theorem exC4_ok : Valid exC4 ∧ GroupS exC4 ∧ OrthogonalS exC4 ∧ ∀ s ∈ exC4.sym.S, IsCubeRotation s := by
  have h1 : (exC4.sym.S.all fun s => exC4.sym.S.all fun t => decide (s * t ∈ exC4.sym.S)) = true := by decide +kernel
  have h2 : (exC4.sym.S.all fun s => decide (s * s.transpose = 1)) = true := by decide +kernel
  have h3 : (exC4.sym.S.all fun s => Named.isSP s && decide (s.det = 1)) = true := by decide +kernel
  refine ⟨(C95_init _ ⟨exC4.sym.S, false, by decide +kernel⟩).1, ⟨by decide +kernel, fun s hs t ht =>
    of_decide_eq_true (List.all_eq_true.1 (List.all_eq_true.1 h1 s hs) t ht)⟩, fun s hs =>
    of_decide_eq_true (List.all_eq_true.1 h2 s hs), fun s hs => ?_⟩
  have := List.all_eq_true.1 h3 s hs
  rw [Bool.and_eq_true, decide_eq_true_eq] at this
  exact ⟨Named.isSP_iff.1 this.1, this.2⟩

/-- **C95** (disagreement) The matrices appended by `append_d3` are not those of the functions `yz, xz, xy`: the documented claim
"the symmetry of these functions is same as that of p-orbitals, but without the negative sign on inversion" fails for a quarter
turn. -/
theorem C95_defect_d3 : ∃ (h : HSym ℚ ℚ 3) (s : Mat ℚ 3), Valid h ∧ GroupS h ∧ OrthogonalS h ∧ s ∈ h.sym.S ∧
    h.appendD3 (RingHom.id ℚ) 0 "d" = (appended h 3 (fun s => (s.det⁻¹ • s).map (RingHom.id ℚ)) 3 0 "d", .ok ()) ∧
    ¬ Transforms t2gFun s ((s.det⁻¹ • s).map (RingHom.id ℚ)) := by
  obtain ⟨h1, h2, h3, h4⟩ := exC4_ok
  refine ⟨exC4, rz4, h1, h2, h3, by decide +kernel, (C95_append_d3 (RingHom.id ℚ) (fun _ => rfl) exC4 h1 h2 h3 0 "d").1, ?_⟩
  intro h
  have h5 := h ![1, 1, 0] 2
  have hinv : rz4⁻¹ = rz4.transpose := Matrix.inv_eq_right_inv (by decide +kernel)
  rw [hinv] at h5
  revert h5
  decide +kernel

example : exC4.appendP (RingHom.id ℚ) ![0, 0, 1 / 2] "p" =
    (appended exC4 3 (fun s => s.map (RingHom.id ℚ)) 0 ![0, 0, 1 / 2] "p", .ok ()) :=
  (C95_append_p (RingHom.id ℚ) (fun _ => rfl) exC4 exC4_ok.1 exC4_ok.2.1 exC4_ok.2.2.1 _ _).1

end TB.HS
