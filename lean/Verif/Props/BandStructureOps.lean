import Verif.Lemmas.BandStructure
import Verif.Props.Linalg

/-!
# C74, C76: `permute`, `transform`, `__add__`, `__mul__` and `supercell` of `BandStructureModel`
-/

namespace TB.BS
open Matrix TB

variable {d n m : ℕ}

/-- **C74.** `permute(order)` permutes rows and columns of the Hamiltonian, its gradient and hessian. -/
theorem C74_permute (b : BSM d n) (order : Fin n → Fin n) (k : RVec d) :
    (∀ i j, (b.permute order).f k i j = b.f k (order i) (order j)) ∧
    (∀ a i j, (b.permute order).df k a i j = b.df k a (order i) (order j)) ∧
    ∀ a a', (b.permute order).ddf k a a' = (b.ddf k a a').map fun M => M.submatrix order order := by
  have key : ∀ c, (b.permute order).hsum c = (b.hsum c).submatrix order order := fun c =>
    hsum_map_hom b (b.permute order) c ⟨⟨fun M => M.submatrix order order, rfl⟩, fun _ _ => rfl⟩ (fun _ _ => rfl)
      (fun _ => rfl) rfl rfl
  refine ⟨fun i j => ?_, fun a i j => ?_, fun a a' => ?_⟩
  · exact congrFun (congrFun (key _) i) j
  · exact congrFun (congrFun (key _) i) j
  · simp only [BSM.ddf, key, show (b.permute order).coeff = b.coeff from rfl]
    cases b.coeff.ddfi <;> rfl

/-- **C74.** Adding a number `c` shifts the Hamiltonian by `c` times the identity (if the first coefficient function is
the constant one, as for every default model) and leaves gradient and hessian of a default model alone; multiplying by
a real number multiplies all of them. -/
theorem C74_scalar (b : BSM d n) (c : ℝ) (k : RVec d) :
    (b.coeff.fi k 0 = 1 → (b.shift c).f k = b.f k + (c : ℂ) • 1) ∧
    (∀ t, b.coeff = .tb t → b.coeff.fi k 0 = 1 ∧ (∀ a, (b.shift c).df k a = b.df k a) ∧
      ∀ a a', (b.shift c).ddf k a a' = b.ddf k a a') ∧
    (b.mul c).f k = (c : ℂ) • b.f k ∧ (∀ a, (b.mul c).df k a = (c : ℂ) • b.df k a) ∧
    ∀ a a', (b.mul c).ddf k a a' = (b.ddf k a a').map fun M => (c : ℂ) • M := by
  have hs : ∀ g, (b.shift c).hsum g = b.hsum g + (g 0 * c) • 1 := fun g => by
    simp only [BSM.hsum, BSM.shift, smul_add, smul_smul, add_assoc]
  have key : ∀ g, (b.mul c).hsum g = (c : ℂ) • b.hsum g := fun g =>
    hsum_map_hom b (b.mul c) g ⟨⟨fun M => (c : ℂ) • M, smul_zero _⟩, fun a b => smul_add _ a b⟩
      (fun z M => smul_comm _ _ _)
      (fun M => by
        change (c : ℂ) • Mᴴ = ((c : ℂ) • M)ᴴ
        rw [conjTranspose_smul]; congr 1; exact (Complex.conj_ofReal c).symm) rfl rfl
  refine ⟨fun h => ?_, fun t ht => ⟨?_, fun a => ?_, fun a a' => ?_⟩, key _, fun a => key _, fun a a' => ?_⟩
  · have := hs (b.coeff.fi k)
    rw [h, one_mul] at this
    exact this
  · rw [ht]; rfl
  · have := hs fun i => b.coeff.dfi k i a
    have h0 : b.coeff.dfi k 0 a = 0 := by rw [ht]; simp only [Coeff.dfi, TBData.dfi, if_true]
    rw [h0, zero_mul, zero_smul, add_zero] at this
    exact this
  · simp only [BSM.ddf, show (b.shift c).coeff = b.coeff from rfl, ht, Coeff.ddfi, hs]
    have h0 : t.ddfi k 0 a a' = 0 := if_pos rfl
    rw [h0, zero_mul, zero_smul, add_zero]
  · simp only [BSM.ddf, key, show (b.mul c).coeff = b.coeff from rfl]
    cases b.coeff.ddfi <;> rfl

/-- **C74.** `transform(A)` raises `ValueError` for custom coefficient functions; otherwise, if the symmetry operations
commute with `A` (always without symmetry), the Hamiltonian at `k` becomes the one at `Aᵀ k`. -/
theorem C74_transform (b : BSM d n) (A : Matrix (Fin d) (Fin d) ℝ) :
    ((∀ t, b.coeff ≠ .tb t) → b.transform A = (b, .error .valueError)) ∧
    ∀ t, b.coeff = .tb t → ∃ b', b.transform A = (b', .ok ()) ∧
      ((∀ s ∈ t.S, s * A = A * s) → ∀ k, b'.f k = b.f (Aᵀ.mulVec k)) := by
  refine ⟨fun h => ?_, fun t ht => ?_⟩
  · unfold BSM.transform
    cases hcf : b.coeff with
    | custom => rfl
    | tb t => exact absurd hcf (h t)
  · refine ⟨{ b with coeff := .tb { t with neighbors := t.neighbors.map fun r => A.mulVec r } },
      by simp only [BSM.transform, ht], fun hS k => ?_⟩
    simp only [BSM.f, ht, Coeff.fi]
    have hc : ∀ i, TBData.fi { t with neighbors := t.neighbors.map fun r => A.mulVec r } k i =
        t.fi (Aᵀ.mulVec k) i := by
      intro i
      by_cases hi : i = 0
      · simp only [TBData.fi, if_pos hi]
      · simp only [TBData.fi, if_neg hi, foldl_add_sum, zero_add, List.length_map]
        refine congrArg List.sum (List.map_congr_left fun s hs => ?_)
        have h1 : TBData.rOrig { t with neighbors := t.neighbors.map fun r => A.mulVec r } i = A.mulVec (t.rOrig i) := by
          simp only [TBData.rOrig, List.length_map]
          have := List.getD_map (l := t.neighbors) (d := 0) (n := i % t.neighbors.length + i / t.neighbors.length)
            (f := fun r => A.mulVec r)
          rwa [mulVec_zero] at this
        have h2 : k ⬝ᵥ s.mulVec (A.mulVec (t.rOrig i)) = Aᵀ.mulVec k ⬝ᵥ s.mulVec (t.rOrig i) := by
          rw [mulVec_mulVec, hS s hs, ← mulVec_mulVec, dotProduct_mulVec, mulVec_transpose]
        rw [h1, h2]
        rfl
    simp only [BSM.hsum, hc]

/-- **C74.** Without the commutation the Hamiltonian is not that of `Aᵀ k`: the symmetry operations keep acting in the
old coordinates. -/
theorem C74_transform_defect : ∃ (b b' : BSM 2 1) (A : Matrix (Fin 2) (Fin 2) ℝ) (k : RVec 2),
    b.transform A = (b', .ok ()) ∧ b'.f k 0 0 ≠ b.f (Aᵀ.mulVec k) 0 0 := by
  refine ⟨⟨.tb ⟨[!![0, 1; 1, 0]], false, [0, ![1, 0]], false, false⟩, 0, [1, 0], none⟩, _, !![1, 0; 0, 2], ![0, 1 / 4],
    rfl, ?_⟩
  simp [BSM.f, BSM.hsum, Coeff.fi, TBData.fi, TBData.rOrig, TBData.func, Finset.sum_range_succ, Matrix.mulVec,
    dotProduct, Fin.sum_univ_two]
  rw [show (2 * Real.pi * (2 * 4⁻¹) : ℂ) = Real.pi by ring, show (2 * Real.pi * 4⁻¹ : ℂ) = Real.pi / 2 by ring]
  simp
  norm_num

/-- **C74.** The direct sum of two models: it succeeds exactly if the options agree, the neighbour lists have the same
length and differ by less than `1e-8`, and the numbers of matrices agree. The Hamiltonian is block diagonal, where the
second block uses the neighbours and the symmetry **of the first model**; hence it is the one of the second model if the
two have the same neighbours and symmetry. -/
theorem C74_add (b : BSM d n) (c : BSM d m) :
    ((∃ r, b.add c = .ok r) ↔ ∃ t u, b.coeff = .tb t ∧ c.coeff = .tb u ∧ t.cosReduced = u.cosReduced ∧ t.exp = u.exp ∧
      t.neighbors.length = u.neighbors.length ∧
      Real.sqrt ((List.zipWith (· - ·) t.neighbors u.neighbors).map fun r => ∑ a, r a ^ 2).sum < 1e-8 ∧
      b.Ps.length = c.Ps.length) ∧
    ∀ r, b.add c = .ok r →
      (∀ k, r.f k = dsum (b.f k) (({ c with coeff := b.coeff } : BSM d m).f k)) ∧
      (c.coeff = b.coeff → ∀ k, r.f k = dsum (b.f k) (c.f k)) := by
  have hz : (0 : CMat (n + m)) = dsum (0 : CMat n) (0 : CMat m) := by
    ext i j; simp [dsum]
  have ha : ∀ (a a' : CMat n) (b b' : CMat m), dsum a b + dsum a' b' = dsum (a + a') (b + b') := by
    intro a a' b b'; ext i j; simp only [dsum, Matrix.add_apply]; split_ifs <;> simp
  have hs : ∀ (z : ℂ) (a : CMat n) (b : CMat m), z • dsum a b = dsum (z • a) (z • b) := by
    intro z a b; ext i j; simp only [dsum, Matrix.smul_apply]; split_ifs <;> simp
  have hres : ∀ r, b.add c = .ok r → ∃ t u, b.coeff = .tb t ∧ c.coeff = .tb u ∧ t.cosReduced = u.cosReduced ∧
      t.exp = u.exp ∧ t.neighbors.length = u.neighbors.length ∧
      listNorm (List.zipWith (· - ·) t.neighbors u.neighbors) < 1e-8 ∧
      b.Ps.length = c.Ps.length ∧ r = ⟨.tb t, dsum b.P0 c.P0, List.zipWith (fun P Q => dsum P Q) b.Ps c.Ps, none⟩ := by
    intro r hr
    unfold BSM.add at hr
    split at hr
    · rename_i t u hb hc
      split_ifs at hr with h1 h2 h3 h4 h5
      exact ⟨t, u, hb, hc, not_not.1 h1, not_not.1 h2, not_not.1 h3, h4, not_not.1 h5, (Except.ok.inj hr).symm⟩
    · cases hr
  have hf : ∀ r, b.add c = .ok r → ∀ k, r.f k = dsum (b.f k) (({ c with coeff := b.coeff } : BSM d m).f k) := by
    intro r hr k
    obtain ⟨t, u, hb, -, -, -, -, -, hl, rfl⟩ := hres r hr
    simp only [BSM.f, BSM.hsum, hb]
    have hsum : ∀ g : ℕ → ℂ, ∑ i ∈ Finset.range (List.zipWith (fun P Q => dsum P Q) b.Ps c.Ps).length,
          g (i + 1) • (List.zipWith (fun P Q => dsum P Q) b.Ps c.Ps).getD i 0 =
        dsum (∑ i ∈ Finset.range b.Ps.length, g (i + 1) • b.Ps.getD i 0)
          (∑ i ∈ Finset.range c.Ps.length, g (i + 1) • c.Ps.getD i 0) := by
      intro g
      rw [List.length_zipWith, ← hl, min_self]
      have : ∀ N ≤ b.Ps.length, ∑ i ∈ Finset.range N, g (i + 1) • (List.zipWith (fun P Q => dsum P Q) b.Ps c.Ps).getD i 0 =
          dsum (∑ i ∈ Finset.range N, g (i + 1) • b.Ps.getD i 0)
            (∑ i ∈ Finset.range N, g (i + 1) • c.Ps.getD i 0) := by
        intro N
        induction N with
        | zero => intro _; simpa using hz
        | succ N ih =>
          intro hN
          rw [Finset.sum_range_succ, ih (by omega), Finset.sum_range_succ, Finset.sum_range_succ, ← ha, ← hs]
          congr 2
          rw [List.getD_eq_getElem _ _ (by simp; omega), List.getD_eq_getElem _ _ (by omega),
            List.getD_eq_getElem _ _ (by omega), List.getElem_zipWith]
      exact this _ le_rfl
    rw [hsum, dsum_conjTranspose, ha, hs, ha]
  refine ⟨⟨?_, ?_⟩, fun r hr => ⟨hf r hr, fun hcb k => ?_⟩⟩
  · rintro ⟨r, hr⟩
    obtain ⟨t, u, h1, h2, h3, h4, h5, h6, h7, -⟩ := hres r hr
    exact ⟨t, u, h1, h2, h3, h4, h5, h6, h7⟩
  · rintro ⟨t, u, h1, h2, h3, h4, h5, h6, h7⟩
    refine ⟨⟨.tb t, dsum b.P0 c.P0, List.zipWith (fun P Q => dsum P Q) b.Ps c.Ps, none⟩, ?_⟩
    simp only [BSM.add, h1, h2]
    rw [if_neg (not_not.2 h3), if_neg (not_not.2 h4), if_neg (not_not.2 h5), if_neg (not_not.2 (show listNorm _ < _ from h6)),
      if_neg (not_not.2 h7)]
  · rw [hf r hr k, ← hcb]

/-- **C74.** The symmetries are not compared: the sum of a model without and a model with symmetry has a wrong second
block. -/
theorem C74_add_defect : ∃ (b c : BSM 1 1) (r : BSM 1 2), b.add c = .ok r ∧ r.f 0 1 1 = 2 ∧ c.f 0 0 0 = 4 := by
  let b : BSM 1 1 := ⟨.tb ⟨[1], false, [0, ![1]], false, true⟩, 0, [1], none⟩
  let c : BSM 1 1 := ⟨.tb ⟨[1, -1], false, [0, ![1]], false, true⟩, 0, [1], none⟩
  obtain ⟨r, hr⟩ := (C74_add b c).1.2 ⟨_, _, rfl, rfl, rfl, rfl, rfl, by norm_num, rfl⟩
  refine ⟨b, c, r, hr, ?_, ?_⟩
  · rw [((C74_add b c).2 r hr).1]
    simp [dsum, b, c, BSM.f, BSM.hsum, Coeff.fi, TBData.fi, TBData.rOrig, TBData.func]
    norm_num
  · simp [c, BSM.f, BSM.hsum, Coeff.fi, TBData.fi, TBData.rOrig, TBData.func]
    norm_num

/-- A sum that succeeds. -/
example : ∃ (b c : BSM 1 1) (r : BSM 1 2), b.add c = .ok r ∧ ∀ k, r.f k = dsum (b.f k) (c.f k) := by
  let b : BSM 1 1 := ⟨.tb ⟨[1], false, [0, ![1]], false, true⟩, 0, [1], none⟩
  let c : BSM 1 1 := ⟨.tb ⟨[1], false, [0, ![1]], false, true⟩, 1, [2], none⟩
  obtain ⟨r, hr⟩ := (C74_add b c).1.2 ⟨_, _, rfl, rfl, rfl, rfl, rfl, by norm_num, rfl⟩
  exact ⟨b, c, r, hr, ((C74_add b c).2 r hr).2 rfl⟩

/-- **C76.** `supercell` never returns: the assertion on the element type of the bounding box fails, whatever the
element types of the two lattice matrices are. -/
theorem C76_supercell {α : Type} (b : BSM d n) (dA dA' : DType) (A A' : Matrix (Fin d) (Fin d) ℝ) (rest : α) :
    ∃ e, b.supercell dA dA' A A' rest = .error e := by
  have h : DType.promote .int64 (DType.promote dA.inv dA') ≠ .int64 := by
    cases dA <;> cases dA' <;> simp [DType.inv, DType.promote]
  unfold BSM.supercell
  cases b.coeff with
  | custom => exact ⟨_, rfl⟩
  | tb t =>
    dsimp only
    split_ifs
    all_goals exact ⟨_, rfl⟩

/-- The checks before that assertion can be passed: `A = 1`, `A' = 2`, one neighbour, no symmetry. -/
example : (⟨.tb ⟨[1], false, [0, ![1]], false, true⟩, 0, [1], none⟩ : BSM 1 1).supercell .float64 .int64 1 2 () =
    .error .assertionError := by
  have h : ∀ i j : Fin 1, |((1 : Matrix (Fin 1) (Fin 1) ℝ)⁻¹ * (2 : Matrix (Fin 1) (Fin 1) ℝ)) i j -
      (round (((1 : Matrix (Fin 1) (Fin 1) ℝ)⁻¹ * (2 : Matrix (Fin 1) (Fin 1) ℝ)) i j) : ℝ)| < 1e-7 := by
    intro i j
    have : ((1 : Matrix (Fin 1) (Fin 1) ℝ)⁻¹ * (2 : Matrix (Fin 1) (Fin 1) ℝ)) i j = (2 : ℤ) := by
      rw [inv_one, one_mul, Subsingleton.elim i 0, Subsingleton.elim j 0]
      have : (2 : Matrix (Fin 1) (Fin 1) ℝ) = 1 + 1 := by norm_num
      rw [this]
      norm_num
    rw [this, round_intCast]
    norm_num
  simp only [BSM.supercell]
  rw [if_neg (by simp), if_neg (by simp), if_neg (not_not.2 h), if_neg (by simp)]
  rfl

end TB.BS
