import Verif.Props.HamiltonianAppend

/-!
# Property C95, continued: the methods for the two atoms of the diamond structure; `copy`
-/

set_option linter.unusedSectionVars false

namespace TB.HS

open Matrix TB.UR TB.Spec

variable {F : Type} [Field F] [StarRing F] [DecidableEq F]

/-! ## Specification -/

/-- The directions of the four bonds of the first atom of the diamond structure; those of the second atom are the negatives. -/
def bonds : List (Fin 3 → ℚ) := [![1, 1, 1], ![1, -1, -1], ![-1, 1, -1], ![-1, -1, 1]]

/-- The operation maps the bonds of the first atom to those of the second: the two atoms are exchanged. -/
def Exchanges (s : Mat ℚ 3) : Prop := ∀ v ∈ bonds, -(s.mulVec v) ∈ bonds

instance (s : Mat ℚ 3) : Decidable (Exchanges s) := by unfold Exchanges; infer_instance

/-- The exchange of the two atoms. -/
def exch (s : Mat ℚ 3) : Fin 2 → Fin 2 := if Exchanges s then ![1, 0] else id

theorem eval_swaps : okAnd (Sym.cubic true) (fun σ => σ.ops.all fun s => decide (swaps s = true ↔ Exchanges s) &&
    decide (Exchanges s ↔ ¬ ∀ v ∈ bonds, s.mulVec v ∈ bonds) && decide (s * s.transpose = 1) &&
    (decide (s.det = 1 → (Exchanges s ↔ axisSign s = -1)) && decide (axisSign s = 1 ∨ axisSign s = -1)) && decide (Exchanges s ↔ ¬ Exchanges (-s))) = true := by
  decide +kernel

/-- **C95** The test used by the code (the sum of the entries) recognises exactly the operations that exchange the two atoms;
all other operations map the bonds of each atom to bonds of the same atom. -/
theorem C95_swaps (s : Mat ℚ 3) (hs : Named.Spec.SignedPerm s) :
    (swaps s = true ↔ Exchanges s) ∧ (Exchanges s ↔ ¬ ∀ v ∈ bonds, s.mulVec v ∈ bonds) := by
  obtain ⟨σ, h1, h2⟩ := okAnd_iff.1 eval_swaps
  obtain ⟨σ', h3, -, -, h4⟩ := Named.C77_cubic true
  rw [h1] at h3
  obtain rfl := Except.ok.inj h3
  have := List.all_eq_true.1 h2 s ((h4 s).2 ⟨hs, Or.inl rfl⟩)
  simp only [Bool.and_eq_true, decide_eq_true_eq] at this
  exact this.1.1.1

theorem sp_facts {s : Mat ℚ 3} (hs : Named.Spec.SignedPerm s) : s * s.transpose = 1 ∧
    (s.det = 1 → (Exchanges s ↔ axisSign s = -1)) ∧ (axisSign s = 1 ∨ axisSign s = -1) ∧ (Exchanges s ↔ ¬ Exchanges (-s)) := by
  obtain ⟨σ, h1, h2⟩ := okAnd_iff.1 eval_swaps
  obtain ⟨σ', h3, -, -, h4⟩ := Named.C77_cubic true
  rw [h1] at h3
  obtain rfl := Except.ok.inj h3
  have := List.all_eq_true.1 h2 s ((h4 s).2 ⟨hs, Or.inl rfl⟩)
  simp only [Bool.and_eq_true, decide_eq_true_eq] at this
  exact ⟨this.1.1.2, this.1.2.1, this.1.2.2, this.2⟩

theorem neg_bonds : ∀ v ∈ bonds, -v ∉ bonds := by
  have : (bonds.all fun v => decide (-v ∉ bonds)) = true := by decide +kernel
  exact fun v hv => of_decide_eq_true (List.all_eq_true.1 this v hv)

theorem exchanges_mul {s t : Mat ℚ 3} (hs : Named.Spec.SignedPerm s) (ht : Named.Spec.SignedPerm t) :
    Exchanges (s * t) ↔ (Exchanges s ↔ ¬ Exchanges t) := by
  have es := (C95_swaps s hs).2
  have et := (C95_swaps t ht).2
  have est := (C95_swaps (s * t) (sp_mul hs ht)).2
  by_cases h1 : Exchanges s <;> by_cases h2 : Exchanges t
  · simp only [h1, h2, not_true, iff_false]
    rw [est, not_not]
    intro v hv
    have := h1 _ (h2 v hv)
    rwa [Matrix.mulVec_neg, neg_neg, Matrix.mulVec_mulVec] at this
  · simp only [h1, h2, not_false_iff, iff_true]
    rw [et, not_not] at h2
    intro v hv
    have := h1 _ (h2 v hv)
    rwa [Matrix.mulVec_mulVec] at this
  · simp only [h1, h2, not_true, iff_true]
    rw [es, not_not] at h1
    intro v hv
    have := h1 _ (h2 v hv)
    rwa [Matrix.mulVec_neg, Matrix.mulVec_mulVec] at this
  · simp only [h1, h2, not_false_iff, iff_true, iff_false]
    rw [et, not_not] at h2
    rw [es, not_not] at h1
    rw [est, not_not]
    intro v hv
    have := h1 _ (h2 v hv)
    rwa [Matrix.mulVec_mulVec] at this

theorem swaps_eq {s : Mat ℚ 3} (hs : Named.Spec.SignedPerm s) : swaps s = decide (Exchanges s) := by
  rw [Bool.eq_iff_iff, decide_eq_true_eq]
  exact (C95_swaps s hs).1

/-- A function of the exchange that is multiplicative. -/
theorem exch_mul {M : Type} [Monoid M] {x : M} (hx : x * x = 1) {s t : Mat ℚ 3} (hs : Named.Spec.SignedPerm s)
    (ht : Named.Spec.SignedPerm t) : (if swaps (s * t) then x else 1) = (if swaps s then x else 1) * if swaps t then x else 1 := by
  simp only [swaps_eq hs, swaps_eq ht, swaps_eq (sp_mul hs ht), decide_eq_true_eq, exchanges_mul hs ht]
  by_cases h1 : Exchanges s <;> by_cases h2 : Exchanges t <;> simp [h1, h2, hx]

theorem not_swaps_one : swaps (1 : Mat ℚ 3) = false := by decide +kernel

theorem appended_congr {h : HSym ℚ F 3} {N : ℕ} {f g : Mat ℚ 3 → Mat F N} (hfg : ∀ s ∈ h.sym.S, f s = g s) (k : ℕ)
    (pos : Fin 3 → ℚ) (name : String) : appended h N f k pos name = appended h N g k pos name := by
  unfold appended newOrb
  rw [List.map_congr_left hfg]

/-- All operations are signed permutations of the axes. -/
def CubicS (h : HSym ℚ F 3) : Prop := ∀ s ∈ h.sym.S, Named.Spec.SignedPerm s

theorem conj_x : (!![0, 1; 1, 0] : Mat F 2).conjTranspose = !![0, 1; 1, 0] := by
  ext i j
  fin_cases i <;> fin_cases j <;> simp

theorem mul_x : (!![0, 1; 1, 0] : Mat F 2) * !![0, 1; 1, 0] = 1 := by
  ext i j
  fin_cases i <;> fin_cases j <;> simp

/-- The matrix that permutes the two atoms. -/
theorem exch_matrix {s : Mat ℚ 3} (hs : Named.Spec.SignedPerm s) (t t' : Fin 2) :
    (if swaps s then !![0, 1; 1, 0] else (1 : Mat F 2)) t t' = if t = exch s t' then 1 else 0 := by
  rw [swaps_eq hs]
  by_cases h : Exchanges s <;> simp only [h, decide_true, decide_false, if_true, exch]
  · fin_cases t <;> fin_cases t' <;> simp
  · simp [Matrix.one_apply]

/-- **C95** `append_diamond_s` without inversion: two functions, permuted like the two atoms. -/
theorem C95_diamond_s (h : HSym ℚ F 3) (hv : Valid h) (hG : GroupS h) (hC : CubicS h) (hi : h.sym.inversion = false)
    (pos : Fin 3 → ℚ) (name : String) :
    h.appendDiamondS pos name =
        (appended h 2 (fun s => Matrix.of fun t t' => if t = exch s t' then 1 else 0) 2 pos name, .ok ()) ∧
      Valid (appended h 2 (fun s => Matrix.of fun t t' => if t = exch s t' then 1 else 0) 2 pos name) := by
  have hc := appended_congr (h := h) (g := fun s => Matrix.of fun t t' => if t = exch s t' then (1 : F) else 0)
    (f := fun s => if swaps s then !![0, 1; 1, 0] else 1) (fun s hs => by ext t t'; exact exch_matrix (hC s hs) t t') 2 pos name
  rw [← hc]
  unfold HSym.appendDiamondS
  rw [hi, if_neg (by simp)]
  refine append_fun hv hG _ (Or.inr rfl) (by simp [not_swaps_one]) (fun a ha b hb => exch_mul mul_x (hC a ha) (hC b hb))
    (fun s _ => ?_) pos name
  by_cases h1 : swaps s <;> simp only [h1, if_true, if_false]
  · rw [conj_x, mul_x]
  · simp

theorem diamond2_apply (ι : ℚ →+* F) {s : Mat ℚ 3} (hs : Named.Spec.SignedPerm s) (t t' : Fin 2) (i j : Fin 3) :
    diamond2 ι s (finProdFinEquiv (t, i)) (finProdFinEquiv (t', j)) = if t = exch s t' then ι (s i j) else 0 := by
  unfold diamond2
  rw [Matrix.submatrix_apply, Equiv.symm_apply_apply, Equiv.symm_apply_apply, Matrix.kroneckerMap_apply, exch_matrix hs]
  simp

theorem diamond2_append {ι : ℚ →+* F} (hι : ∀ x, star (ι x) = ι x) {h : HSym ℚ F 3} (hv : Valid h) (hG : GroupS h)
    (hC : CubicS h) (k : ℕ) (hk : k = 0 ∨ k = 6) (pos : Fin 3 → ℚ) (name : String) :
    h.append (N := 6) ⟨h.sym, h.sym.S.map (diamond2 ι), k⟩ pos name = (appended h 6 (diamond2 ι) k pos name, .ok ()) ∧
      Valid (appended h 6 (diamond2 ι) k pos name) := by
  refine append_fun hv hG _ hk ?_ (fun a ha b hb => ?_) (fun s hs => ?_) pos name
  · unfold diamond2
    rw [not_swaps_one, Matrix.map_one _ (map_zero ι) (map_one ι), if_neg (by simp)]
    rw [show Matrix.kroneckerMap (fun x1 x2 => x1 * x2) (1 : Mat F 2) (1 : Mat F 3) = 1 from Matrix.one_kronecker_one]
    exact Matrix.submatrix_one_equiv _
  · unfold diamond2
    rw [exch_mul mul_x (hC a ha) (hC b hb), Matrix.map_mul]
    rw [Matrix.submatrix_mul_equiv]
    congr 1
    exact Matrix.mul_kronecker_mul _ _ _ _
  · unfold diamond2
    rw [Matrix.conjTranspose_submatrix, Matrix.submatrix_mul_equiv]
    have h1 : Matrix.conjTranspose (if swaps s then !![0, 1; 1, 0] else (1 : Mat F 2)) = if swaps s then !![0, 1; 1, 0] else 1 := by
      by_cases h1 : swaps s <;> simp only [h1, if_true, if_false]
      · exact conj_x
      · simp
    have h2 : (if swaps s then !![0, 1; 1, 0] else (1 : Mat F 2)) * (if swaps s then !![0, 1; 1, 0] else (1 : Mat F 2)) = 1 := by
      by_cases h1 : swaps s <;> simp only [h1, if_true, if_false]
      · exact mul_x
      · simp
    have e := Matrix.mul_kronecker_mul (if swaps s then !![0, 1; 1, 0] else (1 : Mat F 2))
      (if swaps s then !![0, 1; 1, 0] else (1 : Mat F 2)) (s.map ι) (s.map ι).conjTranspose
    rw [h2, map_unitary hι (sp_facts (hC s hs)).1, Matrix.one_kronecker_one] at e
    have e2 : (Matrix.kroneckerMap (fun x1 x2 => x1 * x2) (if swaps s then !![0, 1; 1, 0] else (1 : Mat F 2)) (s.map ι)).conjTranspose =
        Matrix.kroneckerMap (fun x1 x2 => x1 * x2) (if swaps s then !![0, 1; 1, 0] else (1 : Mat F 2)) (s.map ι).conjTranspose := by
      conv_rhs => rw [← h1]
      ext ⟨t, i⟩ ⟨t', j⟩
      simp [Matrix.kroneckerMap_apply, Matrix.conjTranspose_apply]
    rw [e2]
    refine Eq.trans ?_ (Matrix.submatrix_one_equiv (finProdFinEquiv (m := 2) (n := 3)).symm)
    congr 1
    exact e.symm

/-- **C95** `append_diamond_p` without inversion: three odd functions for each atom; the functions of an atom go to those of its
image, turned like the coordinates. -/
theorem C95_diamond_p (ι : ℚ →+* F) (hι : ∀ x, star (ι x) = ι x) (h : HSym ℚ F 3) (hv : Valid h) (hG : GroupS h)
    (hC : CubicS h) (hi : h.sym.inversion = false) (pos : Fin 3 → ℚ) (name : String) :
    ∃ D : Mat ℚ 3 → Mat F 6, h.appendDiamondP ι pos name = (appended h 6 D 0 pos name, .ok ()) ∧
      Valid (appended h 6 D 0 pos name) ∧
      ∀ s ∈ h.sym.S, ∀ (t t' : Fin 2) (i j : Fin 3),
        D s (finProdFinEquiv (t, i)) (finProdFinEquiv (t', j)) = if t = exch s t' then ι (s i j) else 0 := by
  refine ⟨diamond2 ι, ?_, ?_, fun s hs t t' i j => diamond2_apply ι (hC s hs) t t' i j⟩
  · unfold HSym.appendDiamondP
    rw [hi, if_neg (by simp), copy_constructed hv.sym]
    exact (diamond2_append hι hv hG hC 0 (Or.inl rfl) pos name).1
  · exact (diamond2_append hι hv hG hC 0 (Or.inl rfl) pos name).2

/-- **C95** `append_diamond_d3` without inversion, for rotations: in the basis in which the functions `yz, xz, xy` of the second
atom are taken with the opposite sign, the functions of an atom go to those of its image, turned with the right matrix
`axisSign s • s` of these functions. -/
theorem C95_diamond_d3 (ι : ℚ →+* F) (hι : ∀ x, star (ι x) = ι x) (h : HSym ℚ F 3) (hv : Valid h) (hG : GroupS h)
    (hC : ∀ s ∈ h.sym.S, IsCubeRotation s) (hi : h.sym.inversion = false) (pos : Fin 3 → ℚ) (name : String) :
    ∃ D : Mat ℚ 3 → Mat F 6, h.appendDiamondD3 ι pos name = (appended h 6 D 6 pos name, .ok ()) ∧
      Valid (appended h 6 D 6 pos name) ∧
      ∀ s ∈ h.sym.S, ∀ (t t' : Fin 2) (i j : Fin 3),
        D s (finProdFinEquiv (t, i)) (finProdFinEquiv (t', j)) =
          ![1, -1] t * ![1, -1] t' * if t = exch s t' then ι ((axisSign s • s) i j) else 0 := by
  refine ⟨diamond2 ι, ?_, ?_, fun s hs t t' i j => ?_⟩
  · unfold HSym.appendDiamondD3
    rw [hi, if_neg (by simp), copy_constructed hv.sym]
    exact (diamond2_append hι hv hG (fun s hs => (hC s hs).1) 6 (Or.inr rfl) pos name).1
  · exact (diamond2_append hι hv hG (fun s hs => (hC s hs).1) 6 (Or.inr rfl) pos name).2
  · rw [diamond2_apply ι (hC s hs).1]
    obtain ⟨-, h2, h3, -⟩ := sp_facts (hC s hs).1
    have h2 := h2 (hC s hs).2
    by_cases he : Exchanges s
    · rw [h2.1 he]
      simp only [exch, he, if_true]
      fin_cases t <;> fin_cases t' <;> simp
    · have : axisSign s = 1 := by
        rcases h3 with h3 | h3
        · exact h3
        · exact absurd (h2.2 h3) he
      rw [this]
      simp only [exch, he, if_false]
      fin_cases t <;> fin_cases t' <;> simp

/-! ## The branches with inversion -/

/-- Two appends, one after the other. -/
theorem append2_fun {h : HSym ℚ F 3} (hv : Valid h) (hG : GroupS h) {N M : ℕ} (f : Mat ℚ 3 → Mat F N) (g : Mat ℚ 3 → Mat F M)
    {k l : ℕ} (hk : k = 0 ∨ k = N) (hl : l = 0 ∨ l = M) (hf1 : f 1 = 1) (hg1 : g 1 = 1)
    (hfm : ∀ a ∈ h.sym.S, ∀ b ∈ h.sym.S, f (a * b) = f a * f b) (hgm : ∀ a ∈ h.sym.S, ∀ b ∈ h.sym.S, g (a * b) = g a * g b)
    (hfu : ∀ s ∈ h.sym.S, f s * (f s).conjTranspose = 1) (hgu : ∀ s ∈ h.sym.S, g s * (g s).conjTranspose = 1)
    (pos : Fin 3 → ℚ) (n1 n2 : String) :
    h.append2 ⟨h.sym, h.sym.S.map f, k⟩ n1 ⟨h.sym, h.sym.S.map g, l⟩ n2 pos =
        (appended (appended h N f k pos n1) M g l pos n2, .ok ()) ∧
      Valid (appended (appended h N f k pos n1) M g l pos n2) := by
  obtain ⟨a1, a2⟩ := append_fun hv hG f hk hf1 hfm hfu pos n1
  obtain ⟨b1, b2⟩ := append_fun (h := appended h N f k pos n1) a2 hG g hl hg1 hgm hgu pos n2
  refine ⟨?_, b2⟩
  unfold HSym.append2
  rw [a1]
  exact b1

theorem sign_unitary (s : Mat ℚ 3) {N : ℕ} {u : Mat F N} (hu : u * u.conjTranspose = 1) :
    (if swaps s then -u else u) * (if swaps s then -u else u).conjTranspose = 1 := by
  by_cases h1 : swaps s <;> simp [h1, hu]

theorem sign_mul {ι : ℚ →+* F} {s t : Mat ℚ 3} (hs : Named.Spec.SignedPerm s) (ht : Named.Spec.SignedPerm t) :
    (if swaps (s * t) then -((s * t).map ι) else (s * t).map ι) =
      (if swaps s then -(s.map ι) else s.map ι) * (if swaps t then -(t.map ι) else t.map ι) := by
  simp only [swaps_eq hs, swaps_eq ht, swaps_eq (sp_mul hs ht), decide_eq_true_eq, exchanges_mul hs ht, Matrix.map_mul]
  by_cases h1 : Exchanges s <;> by_cases h2 : Exchanges t <;> simp [h1, h2]

/-- The sign of the exchange of the two atoms, as it acts on the difference of a function of the first atom and the same
function of the second. -/
def exchSign (F : Type) [Field F] (s : Mat ℚ 3) : F := if Exchanges s then -1 else 1

/-- **C95** `append_diamond_s` with inversion: what is appended (a valid object, but see `C95_defect_diamond_s`). -/
theorem C95_diamond_s_inversion (h : HSym ℚ F 3) (hv : Valid h) (hG : GroupS h) (hC : CubicS h) (hi : h.sym.inversion = true)
    (pos : Fin 3 → ℚ) (name : String) :
    h.appendDiamondS pos name =
        (appended (appended h 1 (fun _ => 1) 0 pos (name ++ "0")) 1 (fun s => exchSign F s • 1) 1 pos (name ++ "1"), .ok ()) ∧
      Valid (appended (appended h 1 (fun _ => 1) 0 pos (name ++ "0")) 1 (fun s => exchSign F s • 1) 1 pos (name ++ "1")) := by
  have hc := appended_congr (h := appended h 1 (fun _ => 1) 0 pos (name ++ "0")) (g := fun s => exchSign F s • (1 : Mat F 1))
    (f := fun s => if swaps s then -1 else 1) (fun s hs => by
      rw [swaps_eq (hC s hs)]
      by_cases h1 : Exchanges s <;> simp [h1, exchSign]) 1 pos (name ++ "1")
  rw [← hc]
  unfold HSym.appendDiamondS
  rw [hi, if_pos rfl]
  refine append2_fun hv hG (fun _ => (1 : Mat F 1)) (fun s => if swaps s then -1 else 1) (Or.inl rfl) (Or.inr rfl) rfl
    (by simp [not_swaps_one]) (by simp) (fun a ha b hb => exch_mul (by simp) (hC a ha) (hC b hb)) (by simp)
    (fun s _ => sign_unitary s (by simp)) pos _ _

/-- **C95** `append_diamond_p` with inversion: what is appended (a valid object, but see `C95_defect_diamond_p`). -/
theorem C95_diamond_p_inversion (ι : ℚ →+* F) (hι : ∀ x, star (ι x) = ι x) (h : HSym ℚ F 3) (hv : Valid h) (hG : GroupS h)
    (hC : CubicS h) (hi : h.sym.inversion = true) (pos : Fin 3 → ℚ) (name : String) :
    h.appendDiamondP ι pos name = (appended (appended h 3 (fun s => s.map ι) 3 pos (name ++ "0")) 3
        (fun s => exchSign F s • s.map ι) 0 pos (name ++ "1"), .ok ()) ∧
      Valid (appended (appended h 3 (fun s => s.map ι) 3 pos (name ++ "0")) 3
        (fun s => exchSign F s • s.map ι) 0 pos (name ++ "1")) := by
  have hc := appended_congr (h := appended h 3 (fun s => s.map ι) 3 pos (name ++ "0")) (g := fun s => exchSign F s • s.map ι)
    (f := fun s => if swaps s then -(s.map ι) else s.map ι) (fun s hs => by
      rw [swaps_eq (hC s hs)]
      by_cases h1 : Exchanges s <;> simp [h1, exchSign]) 0 pos (name ++ "1")
  rw [← hc]
  unfold HSym.appendDiamondP
  rw [hi, if_pos rfl]
  have hu := fun s hs => map_unitary hι (sp_facts (hC s hs)).1
  exact append2_fun hv hG (fun s => s.map ι) (fun s => if swaps s then -(s.map ι) else s.map ι) (Or.inr rfl) (Or.inl rfl)
    (by simp) (by simp [not_swaps_one]) (fun a _ b _ => Matrix.map_mul) (fun a ha b hb => sign_mul (hC a ha) (hC b hb)) hu
    (fun s hs => sign_unitary s (hu s hs)) pos _ _

/-- **C95** `append_diamond_d3` with inversion, for rotations: the first entry transforms like the differences of the functions
`yz, xz, xy` of the two atoms (the matrix `axisSign s • s` of these functions times the sign of the exchange, odd because the
inversion exchanges the atoms), the second like the sums. -/
theorem C95_diamond_d3_inversion (ι : ℚ →+* F) (hι : ∀ x, star (ι x) = ι x) (h : HSym ℚ F 3) (hv : Valid h) (hG : GroupS h)
    (hC : ∀ s ∈ h.sym.S, IsCubeRotation s) (hi : h.sym.inversion = true) (pos : Fin 3 → ℚ) (name : String) :
    h.appendDiamondD3 ι pos name = (appended (appended h 3 (fun s => exchSign F s • (axisSign s • s).map ι) 0 pos (name ++ "0")) 3
        (fun s => (axisSign s • s).map ι) 3 pos (name ++ "1"), .ok ()) ∧
      Valid (appended (appended h 3 (fun s => exchSign F s • (axisSign s • s).map ι) 0 pos (name ++ "0")) 3
        (fun s => (axisSign s • s).map ι) 3 pos (name ++ "1")) := by
  have hax : ∀ s ∈ h.sym.S, ((axisSign s • s).map ι) = if swaps s then -(s.map ι) else s.map ι := by
    intro s hs
    obtain ⟨-, h2, h3, -⟩ := sp_facts (hC s hs).1
    have h2 := h2 (hC s hs).2
    rw [swaps_eq (hC s hs).1]
    rcases h3 with h3 | h3
    · have : ¬ Exchanges s := fun h => by rw [h2, h3] at h; norm_num at h
      rw [h3]
      simp [this]
    · have : Exchanges s := h2.2 h3
      rw [h3]
      simp only [this, decide_true, if_true]
      ext i j
      simp
  have c1 := appended_congr (h := h) (f := fun s => exchSign F s • (axisSign s • s).map ι) (g := fun s => s.map ι) (fun s hs => by
    simp only [hax s hs, swaps_eq (hC s hs).1]
    by_cases h1 : Exchanges s <;> simp [h1, exchSign]) 0 pos (name ++ "0")
  rw [c1]
  have c2 := appended_congr (h := appended h 3 (fun s => s.map ι) 0 pos (name ++ "0")) (f := fun s => (axisSign s • s).map ι)
    (g := fun s => if swaps s then -(s.map ι) else s.map ι) hax 3 pos (name ++ "1")
  rw [c2]
  unfold HSym.appendDiamondD3
  rw [hi, if_pos rfl]
  have hu := fun s hs => map_unitary hι (sp_facts (hC s hs).1).1
  exact append2_fun hv hG (fun s => s.map ι) (fun s => if swaps s then -(s.map ι) else s.map ι) (Or.inl rfl) (Or.inr rfl)
    (by simp) (by simp [not_swaps_one]) (fun a _ b _ => Matrix.map_mul)
    (fun a ha b hb => sign_mul (hC a ha).1 (hC b hb).1) hu (fun s hs => sign_unitary s (hu s hs)) pos _ _

/-- The quarter turns about `z` with inversion. -/
def exC4i : HSym ℚ ℚ 3 := HSym.init ⟨[1, rz4, rz4 * rz4, rz4 * rz4 * rz4], true⟩

theorem exC4i_ok : Valid exC4i ∧ GroupS exC4i ∧ ∀ s ∈ exC4i.sym.S, IsCubeRotation s := by
  obtain ⟨-, h2, -, h4⟩ := exC4_ok
  exact ⟨(C95_init _ ⟨exC4i.sym.S, true, by decide +kernel⟩).1, h2, h4⟩

example : Valid (appended exC4 2 (fun s => Matrix.of fun t t' => if t = exch s t' then 1 else 0) 2 0 "Cs") :=
  (C95_diamond_s exC4 exC4_ok.1 exC4_ok.2.1 (fun s hs => (exC4_ok.2.2.2 s hs).1) rfl 0 "Cs").2

example : Exchanges rz4 ∧ ¬ Exchanges (rz4 * rz4) ∧ ¬ Exchanges (-rz4) ∧ Exchanges (-1) := by decide +kernel

/-- The matrix of the operation `-s`: the parity times the matrix of `s`. -/
def improperMatrix (o : Orb ℚ ℚ 3) (s : Mat ℚ 3) : Mat ℚ o.N := paritySign o • o.rep.U.getD (o.rep.sym.S.idxOf s) 0

theorem improperMatrix_newOrb (h : HSym ℚ ℚ 3) (N : ℕ) (f : Mat ℚ 3 → Mat ℚ N) (k : ℕ) (pos : Fin 3 → ℚ) (name : String)
    (s : Mat ℚ 3) : improperMatrix (newOrb h N f k pos name) s =
      (if k = 0 then (-1 : ℚ) else 1) • ((h.sym.S.map f).getD (h.sym.S.idxOf s) 0 : Mat ℚ N) := rfl

/-- **C95** (disagreement) `append_diamond_s` with inversion: the rotary reflection `-s` for a quarter turn `s` keeps both atoms
in place, hence leaves both s functions unchanged; but both appended matrices of this operation are `-1`. -/
theorem C95_defect_diamond_s : ∃ (h h' : HSym ℚ ℚ 3) (s : Mat ℚ 3), Valid h ∧ GroupS h ∧ CubicS h ∧ h.sym.inversion = true ∧
    s ∈ h.sym.S ∧ ¬ Exchanges (-s) ∧ h.appendDiamondS 0 "C" = (h', .ok ()) ∧ h'.orbs.length = 2 ∧
    ∀ o ∈ h'.orbs, improperMatrix o s = -1 := by
  obtain ⟨h1, h2, h3⟩ := exC4i_ok
  have hC : CubicS exC4i := fun s hs => (h3 s hs).1
  refine ⟨exC4i, _, rz4, h1, h2, hC, rfl, by decide +kernel, by decide +kernel,
    (C95_diamond_s_inversion exC4i h1 h2 hC rfl 0 "C").1, rfl, ?_⟩
  intro o ho
  have : o = newOrb exC4i 1 (fun _ => 1) 0 0 ("C" ++ "0") ∨
      o = newOrb (appended exC4i 1 (fun _ => 1) 0 0 ("C" ++ "0")) 1 (fun s => exchSign ℚ s • 1) 1 0 ("C" ++ "1") := by
    simpa [appended, exC4i, HSym.init] using ho
  rcases this with rfl | rfl
  · exact (improperMatrix_newOrb exC4i 1 (fun _ => 1) 0 0 ("C" ++ "0") rz4).trans (by decide +kernel : _ = (-1 : Mat ℚ 1))
  · exact (improperMatrix_newOrb (appended exC4i 1 (fun _ => 1) 0 0 ("C" ++ "0")) 1 (fun s => exchSign ℚ s • 1) 1 0 ("C" ++ "1")
      rz4).trans (by decide +kernel : _ = (-1 : Mat ℚ 1))

/-- **C95** (disagreement) `append_diamond_p` with inversion: for the same operation `-s`, which keeps both atoms in place, the
p functions turn with the matrix `-s`; both appended matrices are `s`. -/
theorem C95_defect_diamond_p : ∃ (h h' : HSym ℚ ℚ 3) (s : Mat ℚ 3), Valid h ∧ GroupS h ∧ CubicS h ∧ h.sym.inversion = true ∧
    s ∈ h.sym.S ∧ ¬ Exchanges (-s) ∧ h.appendDiamondP (RingHom.id ℚ) 0 "C" = (h', .ok ()) ∧ h'.orbs.length = 2 ∧
    (∀ o ∈ h'.orbs, ∃ hN : o.N = 3, ∀ i j : Fin 3, improperMatrix o s (i.cast hN.symm) (j.cast hN.symm) = s i j) ∧
      ¬ Transforms (fun i (r : Fin 3 → ℚ) => r i) (-s) s := by
  obtain ⟨h1, h2, h3⟩ := exC4i_ok
  have hC : CubicS exC4i := fun s hs => (h3 s hs).1
  refine ⟨exC4i, _, rz4, h1, h2, hC, rfl, by decide +kernel, by decide +kernel,
    (C95_diamond_p_inversion (RingHom.id ℚ) (fun _ => rfl) exC4i h1 h2 hC rfl 0 "C").1, rfl, ?_⟩
  have hT : ¬ Transforms (fun i (r : Fin 3 → ℚ) => r i) (-rz4) rz4 := by
    intro h
    have h5 := h ![0, 0, 1] 2
    have hinv : (-rz4)⁻¹ = -rz4.transpose := Matrix.inv_eq_right_inv (by decide +kernel)
    rw [hinv] at h5
    revert h5
    decide +kernel
  refine ⟨?_, hT⟩
  intro o ho
  have : o = newOrb exC4i 3 (fun s => s.map (RingHom.id ℚ)) 3 0 ("C" ++ "0") ∨
      o = newOrb (appended exC4i 3 (fun s => s.map (RingHom.id ℚ)) 3 0 ("C" ++ "0")) 3
        (fun s => exchSign ℚ s • s.map (RingHom.id ℚ)) 0 0 ("C" ++ "1") := by
    simpa [appended, exC4i, HSym.init] using ho
  rcases this with rfl | rfl
  · refine ⟨rfl, fun i j => ?_⟩
    exact congrFun (congrFun ((improperMatrix_newOrb exC4i 3 (fun s => s.map (RingHom.id ℚ)) 3 0 ("C" ++ "0") rz4).trans
      (by decide +kernel : _ = rz4)) i) j
  · refine ⟨rfl, fun i j => ?_⟩
    exact congrFun (congrFun ((improperMatrix_newOrb (appended exC4i 3 (fun s => s.map (RingHom.id ℚ)) 3 0 ("C" ++ "0")) 3
        (fun s => exchSign ℚ s • s.map (RingHom.id ℚ)) 0 0 ("C" ++ "1") rz4).trans (by decide +kernel : _ = rz4)) i) j

/-- **C95** (disagreement) `copy` never returns. -/
theorem C95_defect_copy {K : Type} [Field K] [LinearOrder K] [IsStrictOrderedRing K] {d : ℕ} (h : HSym K F d) :
    ∃ e, h.copy = .error e ∧ (h.sym.Constructed → e = .typeError) := by
  unfold HSym.copy
  cases hc : h.sym.copy with
  | error e =>
    refine ⟨e, rfl, fun h1 => ?_⟩
    rw [copy_constructed h1] at hc
    cases hc
  | ok σ => exact ⟨_, rfl, fun _ => rfl⟩

end TB.HS
