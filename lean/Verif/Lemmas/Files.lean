import Verif.Model.Files
import Verif.Props.FormatsJson
import Verif.Props.BandStructure
import Verif.Lemmas.Symmetry

/-!
# Lemmas on saved and loaded models
-/

set_option linter.unusedSectionVars false

namespace TB.Files
open Matrix TB

variable {C PO : Type} {d n m : ℕ}

/-- Ends with. -/
def Spec.Ends (name ext : Name) : Prop := ∃ p, name = p ++ ext

theorem ends_iff {name ext : Name} : Spec.Ends name ext ↔ ext <:+ name :=
  ⟨fun ⟨p, h⟩ => ⟨p, h.symm⟩, fun ⟨p, h⟩ => ⟨p, h.symm⟩⟩

/-- Two endings of the same name, the shorter one ends the other. -/
theorem suffix_disjoint {a b name : Name} (hl : a.length = b.length) (hab : a ≠ b) (ha : a <:+ name) : ¬ b <:+ name := by
  intro hb
  obtain ⟨p, rfl⟩ := ha
  obtain ⟨q, hq⟩ := hb
  exact hab (List.append_inj' hq hl.symm).2.symm

/-- What is assumed of the routines from outside. -/
structure Spec.Contract (L : Lib C PO) : Prop where
  /-- `json` reads what it wrote. -/
  json : ∀ j, L.parse (L.dump j) = .ok j
  /-- `np.argsort` sorts. -/
  sort : Fmt.Spec.IsSortJ L.sort
  /-- `eval` reads what `repr` wrote under the options of `save`, if no array has more than 100000 numbers (`threshold`). -/
  eval : ∀ o v, v.H.length * (v.n * v.n) ≤ 100000 → v.neighbors.length * v.d ≤ 100000 → v.S.length * (v.e * v.e) ≤ 100000 →
    L.eval (L.repr (L.saveOptions o) v) = .ok v

/-- No part of an entry is tiny but non-zero (such parts are set to zero by `json_tb_format.save`, see C31). -/
def Spec.NoTiny (M : CMat n) : Prop :=
  ∀ i j, ((M i j).re = 0 ∨ 1 / 10 ^ 14 ≤ |(M i j).re|) ∧ ((M i j).im = 0 ∨ 1 / 10 ^ 14 ≤ |(M i j).im|)

theorem arrays_eq (r : List (List ℝ × (ℕ → ℕ → Fmt.Cx ℝ))) {n' d' : ℕ} (hn : n' = n) (hd : d' = d) :
    (⟨n', d', r.map fun x a => x.1.getD a 0, r.map fun x i k => ⟨(x.2 i k).1, (x.2 i k).2⟩⟩ : Arrays) =
      ⟨n, d, r.map (Fmt.vec d), r.map (Fmt.mat n)⟩ := by
  subst hn hd; rfl

/-- Arrays written by `json_tb_format.save` and read by `json_tb_format.load`. -/
theorem json_file (L : Lib C PO) (hL : Spec.Contract L) (w : World C PO) (name : Name) (hw : L.canWrite name = true)
    (N : List (RVec d)) (H0 : CMat n) (Hs : List (CMat n)) (hlen : N.length = Hs.length) (hn : 0 < n)
    (hN : ∀ r ∈ N, r ≠ 0) (hH : ∀ M ∈ H0 :: Hs, Spec.NoTiny M) :
    ∃ c N' Hs', jsonSave L w name (0 :: N) (H0 :: Hs) = (w.write name c, .ok ()) ∧
      (∀ w' : World C PO, w'.files name = some c → jsonLoad L w' name = .ok ⟨n, d, 0 :: N', H0 :: Hs'⟩) ∧
      N'.length = Hs'.length ∧ (N'.zip Hs').Perm (N.zip Hs) := by
  obtain ⟨f, x, r, h1, h2, h3, h4, h5, h6⟩ := Fmt.json_arrays L.sort hL.sort N H0 Hs hlen hn hN hH
  refine ⟨L.dump f, r.map (Fmt.vec d), r.map (Fmt.mat n), ?_, ?_, by simp, ?_⟩
  · unfold jsonSave
    rw [if_pos hw, h1]
  · intro w' hw'
    unfold jsonLoad readFile
    rw [hw']
    simp only [bind, Except.bind, hL.json, lift, h3, pure, Except.pure, List.headD_cons]
    rw [arrays_eq (x :: r) h2 h4, List.map_cons, List.map_cons, (Prod.mk.inj h5).1, (Prod.mk.inj h5).2]
  · rw [List.zip_map']
    exact h6

/-- A constructed model. -/
theorem asymOf_eq (N : List (RVec d)) (H0 : CMat n) (Hs : List (CMat n)) (hlen : N.length = Hs.length) :
    asymOf (0 :: N) (H0 :: Hs) = .ok ⟨d, n, ⟨⟨(0, H0) :: N.zip Hs⟩, ⟨[(0, 1)]⟩⟩⟩ := by
  have h1 : mkSeries ((0 : RVec d) :: N) (H0 :: Hs) = .ok ⟨(0, H0) :: N.zip Hs⟩ := by
    unfold mkSeries
    simp only
    rw [if_neg (by simp [vnorm]), if_neg (by simp [hlen])]
    rfl
  have h2 : Series.unitMatrix [(0 : RVec d)] n = .ok ⟨[(0, 1)]⟩ := by
    unfold Series.unitMatrix mkSeries
    simp [vnorm]
  unfold asymOf mkTb
  simp only [h1, h2, bind, Except.bind, pure, Except.pure]

theorem unit_f (k : RVec d) : (⟨[(0, 1)]⟩ : Series d n).f k = .ok 1 := by
  simp [Series.f, hsum, fi]

/-- The object made by `load` is the model of `init_tight_binding` and `set_params_complex`. -/
theorem bsOf_eq (e : ℕ) (T : List (Matrix (Fin e) (Fin e) ℝ)) (S : List (Matrix (Fin d) (Fin d) ℝ)) (inversion : Bool)
    (N : List (RVec d)) (H : List (CMat n)) (c x : Bool) (hH : H ≠ []) (b b' : BS.BSM d n)
    (hb : BS.init ⟨S, inversion, N, c, x⟩ n = .ok b) (hset : b.setParamsComplex H = (b', .ok ())) :
    bsOf e T inversion N H c x = .ok ⟨d, e, n, T, inversion, N, c, x, b'.P0, b'.Ps⟩ ∧
      b'.coeff = .tb ⟨S, inversion, N, c, x⟩ ∧
      (∀ k, (BsObj.mk d d n S inversion N c x b'.P0 b'.Ps).f k = .ok (b'.f k)) := by
  have key : ∀ b b' : BS.BSM d n, b.coeff = .tb ⟨S, inversion, N, c, x⟩ → b.setParamsComplex H = (b', .ok ()) →
      b'.coeff = .tb ⟨S, inversion, N, c, x⟩ ∧
      ({ b with coeff := .tb ⟨[], inversion, N, c, x⟩ } : BS.BSM d n).setParamsComplex H =
        ({ b' with coeff := .tb ⟨[], inversion, N, c, x⟩ }, .ok ()) := by
    intro b b' hc hs
    unfold BS.BSM.setParamsComplex at hs ⊢
    rw [hc] at hs
    simp only at hs ⊢
    by_cases hl : H.length ≠ N.length
    · rw [if_pos hl] at hs
      simp at hs
    rw [if_neg hl] at hs ⊢
    cases H with
    | nil => exact absurd rfl hH
    | cons H0 Hs =>
      simp only at hs ⊢
      cases x <;> cases inversion <;> simp only [if_true, Bool.false_eq_true, if_false, Bool.true_eq_false] at hs ⊢ <;>
        (rw [← (Prod.mk.inj hs).1]; exact ⟨rfl, rfl⟩)
  unfold BS.init at hb
  have ht : (BS.TBData.mk S inversion N c x).termCount = (BS.TBData.mk ([] : List (Matrix (Fin d) (Fin d) ℝ)) inversion N c x).termCount := rfl
  by_cases h1 : (BS.TBData.mk S inversion N c x).termCount < 0
  · rw [if_pos h1] at hb; simp at hb
  rw [if_neg h1] at hb
  by_cases h2 : (BS.TBData.mk S inversion N c x).termCount = 0
  · rw [if_pos h2] at hb; simp at hb
  rw [if_neg h2] at hb
  have hb := Except.ok.inj hb
  obtain ⟨k1, k2⟩ := key b b' (by rw [← hb]) hset
  refine ⟨?_, k1, ?_⟩
  · have hi : BS.init ⟨[], inversion, N, c, x⟩ n = .ok { b with coeff := .tb ⟨[], inversion, N, c, x⟩ } := by
      unfold BS.init
      rw [← ht, if_neg h1, if_neg h2, ← hb]
    have hne : H.isEmpty = false := by simpa using hH
    unfold bsOf
    simp only [hne, hi, k2, bind, Except.bind, pure, Except.pure, Bool.false_eq_true, if_false]
  · intro k
    unfold BsObj.f
    rw [dif_pos rfl]
    congr 1
    unfold BS.BSM.f BS.BSM.hsum BsObj.bsm
    rw [k1]
    have : (S.map fun s : Matrix (Fin d) (Fin d) ℝ => s.submatrix (Fin.cast rfl) (Fin.cast rfl)) = S := by
      conv_rhs => rw [← List.map_id S]
      rfl
    simp only [this]

/-- Sums over the terms do not depend on their order. -/
theorem ofFn_zip_sum {A B M : Type} [AddCommMonoid M] (r : Fin m → A) (H : Fin m → B) (g : A → B → M) :
    ∑ j, g (r j) (H j) = (((List.ofFn r).zip (List.ofFn H)).map fun x => g x.1 x.2).sum := by
  have : (List.ofFn r).zip (List.ofFn H) = List.ofFn fun j => (r j, H j) := by
    apply List.ext_getElem <;> simp
  rw [this, List.map_ofFn, List.sum_ofFn]
  rfl

theorem hsum_ham (k : RVec d) (H0 : CMat n) (r : Fin m → RVec d) (H : Fin m → CMat n)
    (l : List (RVec d × CMat n)) (hl : l.Perm ((List.ofFn r).zip (List.ofFn H))) :
    (⟨(0, H0) :: l⟩ : Series d n).f k =
      .ok (H0 + ∑ j, (BS.Spec.phase k (r j) • H j + (BS.Spec.phase k (r j) • H j)ᴴ)) := by
  have hz : fi k (0 : RVec d) = 1 := by simp [fi]
  have hfold : ∀ (l : List (RVec d × CMat n)) (z : CMat n),
      l.foldl (fun mat t => mat + fi k t.1 • t.2) z = z + (l.map fun t => fi k t.1 • t.2).sum := by
    intro l
    induction l with
    | nil => intro z; simp
    | cons a l ih => intro z; rw [List.foldl_cons, ih, List.map_cons, List.sum_cons, add_assoc]
  have hph : ∀ r : RVec d, fi k r = BS.Spec.phase k r := fun r => rfl
  have hsum' : (l.map fun t => fi k t.1 • t.2).sum = ∑ j, BS.Spec.phase k (r j) • H j := by
    rw [ofFn_zip_sum r H fun a b => BS.Spec.phase k a • b]
    exact (hl.map _).sum_eq
  unfold Series.f hsum
  simp only [hfold, zero_add, hz, one_smul, hsum']
  congr 1
  rw [Finset.sum_add_distrib, Matrix.conjTranspose_sum]
  abel

end TB.Files
