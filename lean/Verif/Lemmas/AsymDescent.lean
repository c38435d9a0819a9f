import Verif.Model.AsymDescent
import Verif.Lemmas.Descent
import Verif.Props.Descent

/-!
# Lemmas for `AsymTightBindingModel.optimize`
-/

set_option linter.unusedSectionVars false

namespace TB.Opt
open Matrix TB
open scoped ComplexOrder

variable {K P n B d : ℕ} {geigh : CMat n → CMat n → (Fin n → ℝ) × CMat n}

theorem ad_run_succ (c : AD K P n B) (m it : ℕ) (ll : Option ℝ) (last x : Par P n) :
    c.run geigh (m + 1) it ll last x =
      if c.batchDiv = 0 then .error .zeroDivision
      else if c.trainS then .error .nameError
      else if c.batch it = ∅ then .error .indexError
      else if (it % 100 = 0 ∨ c.batchDiv = 1) ∧ stop c.conv c.thr ll (c.loss geigh (c.regd x)) then
        .ok (c.regd x)
      else if c.maxAccel it = 0 then .error .zeroDivision
      else c.run geigh m (it + 1) (if it % 100 = 0 ∨ c.batchDiv = 1 then some (c.loss geigh (c.regd x)) else ll)
        (c.add geigh it (c.regd x) last) (c.regd x + c.add geigh it (c.regd x) last) := by
  rw [AD.run]

theorem ad_run_zero (c : AD K P n B) (h : c.batchDiv = 0) (m it : ℕ) (ll : Option ℝ) (last x : Par P n) :
    c.run geigh (m + 1) it ll last x = .error .zeroDivision := by
  rw [ad_run_succ, if_pos h]

theorem ad_run_trainS (c : AD K P n B) (h : c.batchDiv ≠ 0) (ht : c.trainS = true) (m it : ℕ) (ll : Option ℝ) (last x : Par P n) :
    c.run geigh (m + 1) it ll last x = .error .nameError := by
  rw [ad_run_succ, if_neg h, if_pos ht]

theorem ad_run_stop (c : AD K P n B) (hK : K ≠ 0) (h : c.batchDiv ≠ 0) (ht : c.trainS = false) (hr : c.reg = 1) (m : ℕ) (last x : Par P n)
    (hl : c.loss geigh x < c.thr) : c.run geigh (m + 1) 0 none last x = .ok x := by
  have h1 : c.regd x = x := by funext p; simp [AD.regd, hr]
  rw [ad_run_succ, if_neg h, if_neg (by rw [ht]; simp), if_neg, if_pos, h1]
  · refine ⟨Or.inl rfl, ?_⟩
    rw [h1, stop]
    simp only [Bool.false_or, decide_eq_true_eq]
    exact hl
  · refine Finset.ne_empty_of_mem (a := (⟨0, Nat.pos_of_ne_zero hK⟩ : Fin K)) ?_
    rw [AD.batch, Finset.mem_filter]
    exact ⟨Finset.mem_univ _, rfl⟩

/-- An invariant of the coefficients and the last change. -/
theorem ad_inv (c : AD K P n B) (Q : Par P n → Par P n → Prop) (hr : ∀ x l, Q x l → Q (c.regd x) l)
    (ha : ∀ it x l, Q x l → Q (x + c.add geigh it x l) (c.add geigh it x l)) :
    ∀ m it ll l x y, Q x l → c.run geigh m it ll l x = .ok y → ∃ l', Q y l' := by
  intro m
  induction m with
  | zero =>
    intro it ll l x y h hy
    rw [AD.run] at hy
    cases hy
    exact ⟨l, h⟩
  | succ m ih =>
    intro it ll l x y h hy
    rw [ad_run_succ] at hy
    split at hy
    · cases hy
    split at hy
    · cases hy
    split at hy
    · cases hy
    split at hy
    · cases hy
      exact ⟨l, hr x l h⟩
    split at hy
    · cases hy
    · exact ih _ _ _ _ _ (ha it _ l (hr x l h)) hy

theorem quarter0_herm (x : Par (P + 1) n) : (quarter0 x 0).IsHermitian := by
  simp only [quarter0, Fin.val_zero, if_true]
  rw [IsHermitian, conjTranspose_smul, conjTranspose_add, conjTranspose_conjTranspose, add_comm]
  simp

theorem herm_smul {X : CMat n} (h : X.IsHermitian) (r : ℝ) : (r • X).IsHermitian := by
  rw [IsHermitian, conjTranspose_smul, h.eq]
  simp

theorem ad_herm (c : AD K (P + 1) n B) (m it : ℕ) (ll : Option ℝ) (x y : Par (P + 1) n) (hx : (x 0).IsHermitian)
    (h : c.run geigh m it ll 0 x = .ok y) : (y 0).IsHermitian := by
  obtain ⟨l, h1, -⟩ := ad_inv c (fun z l => (z 0).IsHermitian ∧ (l 0).IsHermitian) (by
    rintro z l ⟨h1, h2⟩
    exact ⟨by simpa [AD.regd] using h1, h2⟩) (by
    rintro it z l ⟨h1, h2⟩
    have h3 : (c.add geigh it z l 0).IsHermitian := by
      rw [AD.add, Pi.add_apply, Pi.smul_apply, Pi.smul_apply]
      exact (herm_smul (quarter0_herm _) _).add (herm_smul h2 _)
    exact ⟨h1.add h3, h3⟩) m it ll 0 x y ⟨hx, isHermitian_zero⟩ h
  exact h1

theorem adBatch_one (c : AD K P n B) (h : c.batchDiv = 1) (it : ℕ) : c.batch it = Finset.univ := by
  rw [AD.batch, h, Finset.filter_true_of_mem]
  intro k _
  rw [Nat.mod_one, Nat.mod_one]

theorem adPos_one (c : AD K P n B) (h : c.batchDiv = 1) (k : Fin K) : c.pos k = k := by
  refine Fin.ext ?_
  rw [AD.pos]
  simp [h]

theorem adBatch_ne (c : AD K P n B) (h0 : c.batchDiv ≠ 0) (h : c.batchDiv ≤ K) (it : ℕ) : c.batch it ≠ ∅ := by
  have h1 : it % c.batchDiv < c.batchDiv := Nat.mod_lt _ (Nat.pos_of_ne_zero h0)
  refine Finset.ne_empty_of_mem (a := (⟨it % c.batchDiv, h1.trans_le h⟩ : Fin K)) ?_
  simp [AD.batch]

theorem adReg_one (c : AD K P n B) (h : c.reg = 1) (x : Par P n) : c.regd x = x := by
  funext p; simp [AD.regd, h]

theorem pinv_cast {pinv : ∀ P K, Matrix (Fin P) (Fin K) ℂ → Matrix (Fin K) (Fin P) ℂ} (hp : Spec.RectPinv pinv) (F : Fin K → Fin P → ℂ)
    (hF : ∀ y : Fin K → ℂ, (∀ p, ∑ k, y k * F k p = 0) → y = 0) {N : ℕ} (hN : N = K) (F' : Fin N → Fin P → ℂ)
    (hF' : ∀ i p, F' i p = F (i.cast hN) p) (k k' : Fin K) (h : k'.val < N) :
    ∑ p, F k p * pinv P N (Matrix.of F')ᵀ ⟨k'.val, h⟩ p = if k = k' then 1 else 0 := by
  subst hN
  have h1 : F' = F := by funext i p; exact hF' i p
  subst h1
  exact pinv_left hp F' hF k k'

/-- Only half of the first coefficient of a change counts, since it is made hermitian. -/
theorem fmat_quarter0 (F : Fin K → Fin P → ℂ) (g : Par P n) (k : Fin K) (hF : ∀ p : Fin P, (p : ℕ) = 0 → star (F k p) = F k p) :
    fmat F (quarter0 g) k = fmat F (fun p => (if (p : ℕ) = 0 then (1 / 2 : ℂ) else 1) • g p) k := by
  rw [fmat, fmat, conjTranspose_sum, conjTranspose_sum, ← Finset.sum_add_distrib, ← Finset.sum_add_distrib]
  refine Finset.sum_congr rfl fun p _ => ?_
  simp only [quarter0]
  by_cases hp : (p : ℕ) = 0
  · simp only [hp, if_true]
    rw [conjTranspose_smul, conjTranspose_smul, conjTranspose_smul, conjTranspose_smul, conjTranspose_add, conjTranspose_conjTranspose, hF p hp]
    have h1 : star (1 / 4 : ℂ) = 1 / 4 := by simp
    have h2 : star (1 / 2 : ℂ) = 1 / 2 := by simp
    rw [h1, h2]
    module
  · simp only [hp, if_false, one_smul]

/-- The conditions under which one step is exact. -/
structure AD.Exact (c : AD K (P + 1) n n) (G : Fin K → Fin (P + 1) → ℂ) : Prop where
  batch : c.batchDiv = 1
  left : ∀ k k', ∑ p, c.F k p * G k' p = if k = k' then 1 else 0
  C : ∀ it k p, c.C it k p = G k p * (if (p : ℕ) = 0 then 2 else 1) * (c.norm : ℂ) * K
  F0 : ∀ k, star (c.F k 0) = c.F k 0
  S : ∀ k, c.S k = 1
  win : ∀ b, c.win b = b
  bw : ∃ w : ℝ, w ≠ 0 ∧ ∀ b, c.bw b = w
  mask : ∀ x, c.mask x = x

theorem norm_pos (c : AD K (P + 1) n B) : 0 < c.norm := by
  have : (0 : ℝ) ≤ P := Nat.cast_nonneg P
  rw [AD.norm]
  push_cast
  linarith

theorem ad_exact_step (hg : Spec.GeighOk geigh) (c : AD K (P + 1) n n) (G : Fin K → Fin (P + 1) → ℂ) (hc : c.Exact G) (x : Par (P + 1) n) (it : ℕ)
    (k : Fin K) : fmat c.F (x + c.alpha it • quarter0 (c.mask (c.grad geigh it x))) k =
      (geigh (fmat c.F x k) 1).2 * diagonal (fun i => (c.ref k i : ℂ)) * (geigh (fmat c.F x k) 1).2ᴴ := by
  have hu := adBatch_one c hc.batch it
  have hK : (K : ℝ) ≠ 0 := by
    have := k.pos
    exact_mod_cast this.ne'
  have hN := (norm_pos c).ne'
  obtain ⟨w, hw, hbw⟩ := hc.bw
  have hsol : ∀ k, c.sol geigh x k = geigh (fmat c.F x k) 1 := by
    intro k
    rw [AD.sol, adPos_one c hc.batch, hc.S]
  have hq : ∀ b, c.alpha it * (c.weighted geigh x k b * c.norm * K) = 1 / 2 * c.diff geigh x k b := by
    intro b
    have : Nonempty (Fin n) := ⟨b⟩
    have hsup : (⨆ b, c.bw b) = w := by
      simp only [hbw]
      exact ciSup_const
    rw [AD.alpha, AD.weighted, hu, hsup, hbw, Finset.card_univ, Fintype.card_fin]
    field_simp
  have h1 : ∑ p, c.F k p • (if (p : ℕ) = 0 then (1 / 2 : ℂ) else 1) • c.grad geigh it x p =
      ∑ b, ((c.weighted geigh x k b * c.norm * K : ℝ) : ℂ) • outer (c.vec geigh x k b) := by
    simp only [AD.grad, hu, Finset.smul_sum, smul_smul]
    rw [Finset.sum_comm]
    have h2 : ∀ k', ∑ p : Fin (P + 1), ∑ b, (c.F k p * ((if (p : ℕ) = 0 then (1 / 2 : ℂ) else 1) * (c.C it k' p * (c.weighted geigh x k' b : ℂ)))) • outer (c.vec geigh x k' b) =
        if k = k' then ∑ b, ((c.weighted geigh x k b * c.norm * K : ℝ) : ℂ) • outer (c.vec geigh x k b) else 0 := by
      intro k'
      rw [Finset.sum_comm]
      simp only [← Finset.sum_smul]
      have h3 : ∀ b, ∑ p : Fin (P + 1), c.F k p * ((if (p : ℕ) = 0 then (1 / 2 : ℂ) else 1) * (c.C it k' p * (c.weighted geigh x k' b : ℂ))) =
          (if k = k' then 1 else 0) * ((c.weighted geigh x k' b * c.norm * K : ℝ) : ℂ) := by
        intro b
        rw [← hc.left k k', Finset.sum_mul]
        refine Finset.sum_congr rfl fun p _ => ?_
        rw [hc.C]
        push_cast
        split <;> ring
      simp only [h3]
      split
      · rename_i h
        subst h
        refine Finset.sum_congr rfl fun b _ => ?_
        rw [one_mul]
      · simp
    simp only [h2, Finset.sum_ite_eq, Finset.mem_univ, if_true]
  have h4 : ∑ b, ((c.weighted geigh x k b * c.norm * K : ℝ) : ℂ) • outer (c.vec geigh x k b) =
      (geigh (fmat c.F x k) 1).2 * diagonal (fun i => ((c.weighted geigh x k i * c.norm * K : ℝ) : ℂ)) * (geigh (fmat c.F x k) 1).2ᴴ := by
    rw [← outer_sum]
    refine Finset.sum_congr rfl fun b _ => ?_
    have h8 : c.vec geigh x k b = fun i => (geigh (fmat c.F x k) 1).2 i b := by
      funext i; rw [AD.vec, hsol, hc.win]
    rw [h8]
  have h5 := (geigh_spectral (hg _ _ (fmat_herm c.F x k) PosDef.one)).2
  have h6 : fmat c.F (quarter0 (c.grad geigh it x)) k = (2 : ℂ) • (geigh (fmat c.F x k) 1).2 *
      diagonal (fun i => ((c.weighted geigh x k i * c.norm * K : ℝ) : ℂ)) * (geigh (fmat c.F x k) 1).2ᴴ := by
    rw [fmat_quarter0 c.F _ k (fun p hp => by
      have : p = 0 := Fin.ext hp
      rw [this]; exact hc.F0 k), fmat, h1, h4, conjTranspose_mul, conjTranspose_mul, conjTranspose_conjTranspose, diagonal_conjTranspose, ← Matrix.mul_assoc]
    have h7 : star (fun i => ((c.weighted geigh x k i * c.norm * K : ℝ) : ℂ)) = fun i => ((c.weighted geigh x k i * c.norm * K : ℝ) : ℂ) := by
      funext i
      rw [Pi.star_apply, Complex.star_def, Complex.conj_ofReal]
    rw [h7, Matrix.smul_mul, Matrix.smul_mul, two_smul]
  rw [fmat_add, fmat_smul, hc.mask, h6]
  set V := (geigh (fmat c.F x k) 1).2
  have h9 : ((c.alpha it : ℝ) : ℂ) • ((2 : ℂ) • V * diagonal (fun i => ((c.weighted geigh x k i * c.norm * K : ℝ) : ℂ)) * Vᴴ) =
      V * diagonal (fun i => (c.diff geigh x k i : ℂ)) * Vᴴ := by
    rw [Matrix.smul_mul, Matrix.smul_mul, smul_smul, ← Matrix.smul_mul, ← Matrix.mul_smul, ← diagonal_smul]
    congr 3
    funext i
    rw [Pi.smul_apply, smul_eq_mul, mul_assoc, mul_left_comm, ← Complex.ofReal_mul, hq]
    push_cast
    ring
  rw [h9]
  conv_lhs => rw [h5]
  rw [← Matrix.add_mul, ← Matrix.mul_add, diagonal_add]
  congr 3
  funext i
  rw [AD.diff, hsol, hc.win]
  push_cast
  ring

/-! ## the call -/

/-- The loop data for given matrices. -/
noncomputable def adOf (a : ADArgs K B d) (pinv : ∀ P K, Matrix (Fin P) (Fin K) ℂ → Matrix (Fin K) (Fin P) ℂ) (l : List (CMat n)) (H0 : CMat n)
    (rest : List (RVec d × CMat n)) (S : Fin K → CMat n) (win : Fin B → Fin n) : AD K (rest.length + 1) n B :=
  { F := coef a.ks ((0, H0) :: rest), S := S, ref := a.ref, bw := a.bw, win := win, batchDiv := a.batchDiv, lr := a.lr,
    trainS := a.trainS, usePinv := a.usePinv, accel := adAccel a.usePinv a.batchDiv K a.maxAccel, reg := a.reg,
    mask := fun x => if a.keepZeros then mask l x else x, conv := a.conv, thr := a.thr, pinv := pinv }

theorem ad_form {lib : Lib n} (hl : Spec.LibOk lib) (pinv : ∀ P K, Matrix (Fin P) (Fin K) ℂ → Matrix (Fin K) (Fin P) ℂ) (a : ADArgs K B d)
    (H0 S0 : CMat n) (hrest srest : List (RVec d × CMat n))
    (hH0 : H0.IsHermitian) (hS0 : S0.IsHermitian) (hpos : (TB.Spec.value S0 srest 0).PosDef) (hK : K ≠ 0) (hB : B ≠ 0)
    (off : ℤ) (hoff : 0 ≤ off ∧ off ≤ (n : ℤ) - B) (m : ℕ) :
    ∃ M : CMat n, IsUnit M.det ∧
      (((⟨(0, S0) :: srest⟩ : Series d n).conj M).f 0 = .ok 1) ∧
      (∃ D, ((⟨(0, H0) :: hrest⟩ : Series d n).conj M).f 0 = .ok D ∧ IsDiag D) ∧
      (∀ e, (adOf a pinv (H0 :: hrest.map Prod.snd) (Mᴴ * H0 * M) (hrest.map fun y => (y.1, Mᴴ * y.2 * M))
          (fun k => Mᴴ * TB.Spec.value S0 srest (a.ks k) * M) fun b => ⟨off.toNat + b, by omega⟩).run lib.geigh m 0 none 0
          (arr ((0, Mᴴ * H0 * M) :: hrest.map fun y => (y.1, Mᴴ * y.2 * M))) = .error e →
        tbOptimize lib pinv ⟨⟨(0, H0) :: hrest⟩, ⟨(0, S0) :: srest⟩⟩ a off m = .error e) ∧
      (∀ x, (adOf a pinv (H0 :: hrest.map Prod.snd) (Mᴴ * H0 * M) (hrest.map fun y => (y.1, Mᴴ * y.2 * M))
          (fun k => Mᴴ * TB.Spec.value S0 srest (a.ks k) * M) fun b => ⟨off.toNat + b, by omega⟩).run lib.geigh m 0 none 0
          (arr ((0, Mᴴ * H0 * M) :: hrest.map fun y => (y.1, Mᴴ * y.2 * M))) = .ok x →
        (x 0).IsHermitian ∧ ∃ M2 : CMat n, IsUnit M2.det ∧ tbOptimize lib pinv ⟨⟨(0, H0) :: hrest⟩, ⟨(0, S0) :: srest⟩⟩ a off m =
          .ok ⟨(setArr ((0, Mᴴ * H0 * M) :: hrest.map fun y => (y.1, Mᴴ * y.2 * M)) x).conj M2, (⟨(0, S0) :: srest⟩ : Series d n).conj (M * M2)⟩ ∧
          ((⟨(0, S0) :: srest⟩ : Series d n).conj (M * M2)).f 0 = .ok 1 ∧
          ∃ D, ((setArr ((0, Mᴴ * H0 * M) :: hrest.map fun y => (y.1, Mᴴ * y.2 * M)) x).conj M2).f 0 = .ok D ∧ IsDiag D) := by
  obtain ⟨M, hM, hMu, hM1, hM2⟩ := normalize_shape lib.eigh hl.eigh lib.sorting H0 S0 hrest srest hH0 hS0 hpos
  set rest1 := hrest.map fun y => (y.1, Mᴴ * y.2 * M) with hrest1
  have hval : ∀ k, valueAt ((⟨(0, S0) :: srest⟩ : Series d n).conj M) k = Mᴴ * TB.Spec.value S0 srest k * M := by
    intro k
    rw [valueAt_conj, valueAt_eq (f_eq _ _ _)]
  set c := adOf a pinv (H0 :: hrest.map Prod.snd) (Mᴴ * H0 * M) rest1 (fun k => Mᴴ * TB.Spec.value S0 srest (a.ks k) * M)
    fun b => ⟨off.toNat + b, by omega⟩ with hc
  have hcall : tbOptimize lib pinv ⟨⟨(0, H0) :: hrest⟩, ⟨(0, S0) :: srest⟩⟩ a off m =
      (c.run lib.geigh m 0 none 0 (arr ((0, Mᴴ * H0 * M) :: rest1))).bind fun x =>
        (⟨setArr ((0, Mᴴ * H0 * M) :: rest1) x, (⟨(0, S0) :: srest⟩ : Series d n).conj M⟩ : Tb d n).normalize lib.eigh lib.sorting := by
    rw [tbOptimize, if_neg (by simp [hK]), dif_pos hoff, if_neg hB]
    simp only [bind, Except.bind]
    rw [hM]
    simp only [ADArgs.ad, hval]
    rfl
  refine ⟨M, hMu, hM1, hM2, ?_, ?_⟩
  · intro e he
    rw [hcall, he]
    rfl
  · intro x hx
    have hx0 : (x 0).IsHermitian := ad_herm c m 0 none _ x (conj_herm hH0 M) hx
    refine ⟨hx0, ?_⟩
    obtain ⟨srest', hsrest⟩ : ∃ srest', ((⟨(0, S0) :: srest⟩ : Series d n).conj M) = ⟨(0, Mᴴ * S0 * M) :: srest'⟩ := ⟨_, rfl⟩
    have hset := setArr_cons (0 : RVec d) (Mᴴ * H0 * M) rest1 x
    obtain ⟨M2, hN, hNu, hN1, hN2⟩ := normalize_shape lib.eigh hl.eigh lib.sorting (x 0) (Mᴴ * S0 * M)
      (List.ofFn fun p : Fin rest1.length => (rest1[p].1, x p.succ)) srest' hx0 (conj_herm hS0 M) (by
        rw [hsrest, f_eq] at hM1
        rw [Except.ok.inj hM1]
        exact PosDef.one)
    rw [← hset, ← hsrest] at hN
    rw [← hset] at hN2
    rw [← hsrest, conj_conj] at hN1
    rw [conj_conj] at hN
    refine ⟨M2, hNu, ?_, hN1, hN2⟩
    rw [hcall, hx]
    exact hN

end TB.Opt
