import Mathlib.Tactic.Linarith
import Mathlib.Tactic.Ring
import Mathlib.Data.List.GetD
import Verif.Model.QeBinary
import Verif.Spec.QeFiles

/-!
# Lemmas for C129 and C130: reading what stands in a file
-/

namespace TB.QeBin
open TB TB.Spec.Qe

theorem items_append {size n : ℕ} {l : List Bytes} (h : Words size n l) (rest : Bytes) :
    items size n (l.flatten ++ rest) = (l, rest) := by
  obtain ⟨hn, hs⟩ := h
  induction l generalizing n with
  | nil => subst hn; simp [items]
  | cons x l ih =>
    subst hn
    have hx := hs x (by simp)
    have := ih rfl fun y hy => hs y (by simp [hy])
    rw [List.length_cons, items, List.flatten_cons, List.append_assoc, if_neg (by simp [hx]), ← hx]
    simp only [List.drop_left, List.take_left]
    rw [hx, this]

theorem scalar_append {size : ℕ} {x : Bytes} (h : x.length = size) (rest : Bytes) : scalar size (x ++ rest) = .ok (x, rest) := by
  have := items_append (size := size) (n := 1) (l := [x]) ⟨rfl, by simpa using h⟩ rest
  simp only [List.flatten_cons, List.flatten_nil, List.append_nil] at this
  rw [scalar, this]

theorem drop_mark {x : Bytes} {n : ℕ} (h : x.length = n) (rest : Bytes) : (x ++ rest).drop n = rest := by
  rw [← h, List.drop_left]

theorem drop_two {x y : Bytes} (hx : x.length = 4) (hy : y.length = 4) (rest : Bytes) : (x ++ (y ++ rest)).drop 8 = rest := by
  rw [← List.append_assoc]
  exact drop_mark (by simp [hx, hy]) rest

theorem lattice_append (c : Codec) {b1 b2 b3 : List Bytes} (h1 : Words 8 3 b1) (h2 : Words 8 3 b2) (h3 : Words 8 3 b3) (rest : Bytes) :
    lattice c (b1.flatten ++ (b2.flatten ++ (b3.flatten ++ rest))) = .ok (columns c.f64 b1 b2 b3, rest) := by
  unfold lattice
  simp only [items_append h1, items_append h2, items_append h3]
  rw [if_pos ⟨h1.1, h2.1, h3.1⟩]
  rfl

theorem assignRow_ok {α : Type} {n : ℕ} {l : List α} (h : l.length = n) : assignRow n l = .ok l := by
  unfold assignRow
  rw [if_pos h]

theorem records_append (c : Codec) {count n : ℕ} {bands : List (Marks × List Word)} (hn : bands.length = n)
    (h : ∀ r ∈ bands, r.1.Ok ∧ Words 16 count r.2) :
    records c count n ((recordsOf bands).drop 4) = .ok (bands.map fun r => r.2.map c.c128) := by
  induction bands generalizing n with
  | nil => subst hn; rfl
  | cons r bands ih =>
    subst hn
    obtain ⟨⟨hp, hq⟩, hw⟩ := h r (by simp)
    have e : (recordsOf (r :: bands)).drop 4 = r.2.flatten ++ (r.1.post ++ recordsOf bands) := by
      simp only [recordsOf, record, List.map_cons, List.flatten_cons, List.append_assoc]
      exact drop_mark hp _
    rw [e, List.length_cons, records]
    simp only [items_append hw]
    rw [assignRow_ok (by rw [List.length_map, hw.1])]
    simp only
    have e2 : (r.1.post ++ recordsOf bands).drop 8 = (recordsOf bands).drop 4 := by
      rw [show 8 = 4 + 4 from rfl, ← List.drop_drop, drop_mark hq]
    rw [e2, ih rfl fun x hx => h x (by simp [hx])]
    rfl

theorem rows_spec {α : Type} (m : ℕ) (n : ℕ) (l : List α) (h : l.length = n * m) :
    (rows m n l).length = n ∧ ∀ i < n, ((rows m n l).getD i []).length = m ∧ ∀ p < m, ((rows m n l).getD i [])[p]? = l[i * m + p]? := by
  induction n generalizing l with
  | zero => simp [rows]
  | succ n ih =>
    obtain ⟨h1, h2⟩ := ih (l.drop m) (by rw [List.length_drop, h]; rw [Nat.succ_mul]; omega)
    refine ⟨by simp [rows, h1], ?_⟩
    intro i hi
    rw [rows]
    cases i with
    | zero =>
      refine ⟨by simp [h, Nat.succ_mul], fun p hp => ?_⟩
      simp [hp]
    | succ i =>
      obtain ⟨a, b⟩ := h2 i (by omega)
      refine ⟨by simpa using a, fun p hp => ?_⟩
      have := b p hp
      rw [List.getD_cons_succ, this, List.getElem?_drop]
      congr 1
      rw [Nat.succ_mul]
      omega

/-- What is read from a file in the documented layout. -/
def waveOf (c : Codec) (w : WaveFile) (ng np : ℕ) : Wave :=
  ⟨c.i32 w.ik, fun i => c.f64 (w.xk.getD i.val []), rows 3 ng (w.mill.map c.i32),
    w.bands.map fun r => rows np ng (r.2.map c.c128)⟩

theorem readWave_ok (c : Codec) {w : WaveFile} {ng np nb : ℕ} (h : w.Ok c.i32 ng np nb) (B : Option (Mat ℝ 3))
    (hB : ∀ B0, B = some B0 → B0 = columns c.f64 w.b1 w.b2 w.b3) :
    readWave c B w.bytes = .ok (columns c.f64 w.b1 w.b2 w.b3, waveOf c w ng np) := by
  have e : w.bytes = w.m1.pre ++ (w.ik ++ (w.xk.flatten ++ (w.ispin ++ (w.gamma ++ (w.scalef ++ (w.m1.post ++ (w.m2.pre ++
      (w.ngw ++ (w.igwx ++ (w.npol ++ (w.nbnd ++ (w.m2.post ++ (w.m3.pre ++ (w.b1.flatten ++ (w.b2.flatten ++ (w.b3.flatten ++
      (w.m3.post ++ (w.m4.pre ++ (w.mill.flatten ++ (w.m4.post ++ recordsOf w.bands)))))))))))))))))))) := by
    simp [WaveFile.bytes, record, List.append_assoc]
  rw [e, readWave]
  have hb : (w.m4.post ++ recordsOf w.bands).drop 8 = (recordsOf w.bands).drop 4 := by
    rw [show 8 = 4 + 4 from rfl, ← List.drop_drop, drop_mark h.m4.2]
  rw [drop_mark h.m1.1]
  simp only [scalar_append h.ik, bind, Except.bind, items_append h.xk, scalar_append h.ispin, scalar_append h.gamma, scalar_append h.scalef,
    drop_two h.m1.2 h.m2.1, scalar_append h.ngw, scalar_append h.igwx.1, scalar_append h.npol.1, scalar_append h.nbnd.1,
    drop_two h.m2.2 h.m3.1, lattice_append c h.b1 h.b2 h.b3]
  have hnot : otherLattice B (columns c.f64 w.b1 w.b2 w.b3) = false := by
    cases hBB : B with
    | none => rfl
    | some B0 => simp [otherLattice, hB B0 hBB]
  rw [hnot, if_neg (by simp)]
  have hng : (c.i32 w.igwx).toNat = ng := by rw [h.igwx.2]; simp
  have hnp : (c.i32 w.npol).toNat = np := by rw [h.npol.2]; simp
  have hnb : (c.i32 w.nbnd).toNat = nb := by rw [h.nbnd.2]; simp
  rw [hng, hnp, hnb]
  simp only [drop_two h.m3.2 h.m4.1, items_append h.mill]
  rw [if_neg (not_not.2 h.mill.1), hb, records_append c h.count h.bands]
  simp [pure, Except.pure, waveOf, List.map_map, Function.comp_def]

theorem readWaves_ok (c : Codec) (fs : List (WaveFile × ℕ × ℕ × ℕ)) (B : Mat ℝ 3)
    (h : ∀ f ∈ fs, f.1.Ok c.i32 f.2.1 f.2.2.1 f.2.2.2 ∧ columns c.f64 f.1.b1 f.1.b2 f.1.b3 = B) (B0 : Option (Mat ℝ 3))
    (hB : ∀ b, B0 = some b → b = B) :
    readWaves c B0 (fs.map fun f => f.1.bytes) = .ok (if fs = [] then B0 else some B, fs.map fun f => waveOf c f.1 f.2.1 f.2.2.1) := by
  induction fs generalizing B0 with
  | nil => simp [readWaves]
  | cons f fs ih =>
    obtain ⟨h1, h2⟩ := h f (by simp)
    have hr := readWave_ok c h1 B0 fun b hb => (hB b hb).trans h2.symm
    have ih' := ih (fun g hg => h g (by simp [hg])) (some B) (by rintro b ⟨⟩; rfl)
    rw [List.map_cons, readWaves, hr]
    simp only [bind, Except.bind, h2]
    rw [ih']
    simp only [pure, Except.pure, List.map_cons, reduceCtorEq, if_false]
    split_ifs <;> rfl

/-! ## The order of the files -/

theorem foldl_set_length (L : List (ℕ × ℕ)) (l : List ℕ) : (L.foldl (fun l p => l.set p.1 p.2) l).length = l.length := by
  induction L generalizing l with
  | nil => rfl
  | cons p L ih => rw [List.foldl_cons, ih, List.length_set]

theorem foldl_set_get (L : List (ℕ × ℕ)) (l : List ℕ) (j : ℕ) (hj : j < l.length) :
    (∀ p, p ∈ L → p.1 = j → (∀ q ∈ L, q.1 = j → q.2 ≤ p.2) → L.Pairwise (fun a b => a.2 < b.2) →
      (L.foldl (fun l p => l.set p.1 p.2) l)[j]? = some p.2) ∧
    ((∀ p ∈ L, p.1 ≠ j) → (L.foldl (fun l p => l.set p.1 p.2) l)[j]? = l[j]?) := by
  induction L generalizing l with
  | nil => exact ⟨fun p hp => absurd hp (by simp), fun _ => rfl⟩
  | cons a L ih =>
    have hl : j < (l.set a.1 a.2).length := by rwa [List.length_set]
    obtain ⟨i1, i2⟩ := ih (l.set a.1 a.2) hl
    constructor
    · intro p hp hpj hmax hs
      rw [List.pairwise_cons] at hs
      rw [List.foldl_cons]
      rcases List.mem_cons.1 hp with rfl | hp'
      · rw [i2]
        · rw [hpj, List.getElem?_set_self (by simpa using hj)]
        · intro q hq hqj
          have h1 := hmax q (by simp [hq]) hqj
          have h2 := hs.1 q hq
          omega
      · exact i1 p hp' hpj (fun q hq => hmax q (by simp [hq])) hs.2
    · intro h
      rw [List.foldl_cons, i2 fun p hp => h p (by simp [hp]), List.getElem?_set_ne (h a (by simp))]

theorem mapM_pyIdx {n : ℕ} {order : List ℤ} (h : ∀ z ∈ order, 1 ≤ z ∧ z ≤ n) :
    order.mapM (fun z => pyIdx n (z - 1)) = some (order.map fun z => (z - 1).toNat) := by
  induction order with
  | nil => rfl
  | cons z order ih =>
    obtain ⟨h1, h2⟩ := h z (by simp)
    rw [List.mapM_cons, ih fun y hy => h y (by simp [hy])]
    have : pyIdx n (z - 1) = some (z - 1).toNat := by
      rw [pyIdx, if_pos (by omega), if_pos (by omega)]
    rw [this]
    rfl

theorem zipIdx_pairwise (l : List ℕ) (k : ℕ) : (l.zipIdx k).Pairwise (fun a b => a.2 < b.2) := by
  induction l generalizing k with
  | nil => simp
  | cons x l ih =>
    rw [List.zipIdx_cons, List.pairwise_cons]
    refine ⟨?_, ih _⟩
    rintro ⟨a, b⟩ hb
    have := List.le_snd_of_mem_zipIdx hb
    simp only
    omega

/-- Position `j` holds the last file with number `j + 1`, or 0. -/
theorem invOrder_ok {order : List ℤ} (hne : order ≠ []) (h : ∀ z ∈ order, 1 ≤ z ∧ z ≤ order.length) :
    ∃ inv, invOrder order = .ok inv ∧ inv.length = order.length ∧ ∀ j < order.length,
      (∀ i, order[i]? = some ((j : ℤ) + 1) → (∀ i', i < i' → order[i']? ≠ some ((j : ℤ) + 1)) → inv[j]? = some i) ∧
      ((∀ z ∈ order, z ≠ (j : ℤ) + 1) → inv[j]? = some 0) := by
  refine ⟨_, by rw [invOrder, if_neg hne, mapM_pyIdx h], by rw [foldl_set_length, List.length_replicate], ?_⟩
  intro j hj
  obtain ⟨g1, g2⟩ := foldl_set_get (order.map fun z => (z - 1).toNat).zipIdx (List.replicate order.length 0) j (by simpa using hj)
  have key : ∀ (p : ℕ × ℕ), p ∈ (order.map fun z => (z - 1).toNat).zipIdx ↔ ∃ z, order[p.2]? = some z ∧ p.1 = (z - 1).toNat := by
    rintro ⟨a, b⟩
    rw [List.mem_zipIdx_iff_getElem?, List.getElem?_map, Option.map_eq_some_iff]
    simp only [eq_comm]
  constructor
  · intro i hi hlast
    refine g1 (j, i) ((key _).2 ⟨_, hi, by simp⟩) rfl ?_ (zipIdx_pairwise _ _)
    intro q hq hqj
    obtain ⟨z, hz, hqz⟩ := (key q).1 hq
    have hz1 := h z (List.mem_of_getElem? hz)
    have : z = (j : ℤ) + 1 := by
      rw [hqj] at hqz
      omega
    by_contra hc
    exact hlast q.2 (not_le.1 hc) (by rw [hz, this])
  · intro hno
    rw [g2]
    · simp [hj]
    · intro q hq hqj
      obtain ⟨z, hz, hqz⟩ := (key q).1 hq
      have hz1 := h z (List.mem_of_getElem? hz)
      exact hno z (List.mem_of_getElem? hz) (by rw [hqj] at hqz; omega)

/-! ## Reading eight bytes early -/

theorem halves {x : Bytes} (h : x.length = 16) : (x.take 8).length = 8 ∧ (x.drop 8).length = 8 := by simp [h]

/-- Sixteen-byte words read from eight bytes before: halves of consecutive words; the last half is left. -/
theorem items_early (q : Bytes) (hq : q.length = 8) (l : List Bytes) (n : ℕ) (h : Words 16 n l) (rest : Bytes) :
    ∃ l' t, items 16 n (q ++ (l.flatten ++ rest)) = (l', t ++ rest) ∧ t.length = 8 ∧ l'.length = n ∧
      l'.map (fun x => x.take 8) = (q :: l.map (fun x => x.drop 8)).take n := by
  obtain ⟨hn, hs⟩ := h
  induction l generalizing q n with
  | nil => subst hn; exact ⟨[], q, by simp [items], hq, rfl, by simp⟩
  | cons x l ih =>
    subst hn
    have hx := hs x (by simp)
    obtain ⟨l', t, e, ht, hl, hm⟩ := ih (x.drop 8) (halves hx).2 l.length rfl fun y hy => hs y (by simp [hy])
    refine ⟨(q ++ x.take 8) :: l', t, ?_, ht, by simp [hl], ?_⟩
    · have e1 : q ++ ((x :: l).flatten ++ rest) = (q ++ x.take 8) ++ (x.drop 8 ++ (l.flatten ++ rest)) := by
        rw [List.flatten_cons]
        simp only [List.append_assoc]
        rw [← List.append_assoc (x.take 8) (x.drop 8), List.take_append_drop]
      have hlen : (q ++ x.take 8).length = 16 := by simp [hq, hx]
      rw [e1, List.length_cons, items, if_neg (by rw [List.length_append, hlen]; omega), drop_mark hlen, e]
      simp only
      rw [← hlen, List.take_left]
    · rw [List.map_cons, List.length_cons, List.map_cons, List.take_succ_cons, hm]
      rw [List.take_append_of_le_length (by omega), ← hq, List.take_length]

theorem records_early (c : Codec) {ng n : ℕ} {bands : List (Marks × List Word)} (hn : bands.length = n)
    (h : ∀ r ∈ bands, r.1.Ok ∧ Words 16 ng r.2) (q : Bytes) (hq : q.length = 4) :
    ∃ out, records c ng n (q ++ recordsOf bands) = .ok out ∧ out.length = n ∧ ∀ i r, bands[i]? = some r →
      ∃ q' : Bytes, q' = (if i = 0 then q else ((bands.getD (i - 1) r).1.post)) ∧
        (out[i]?).map (fun row => row.map Complex.re) =
          some (((q' ++ r.1.pre) :: r.2.map (fun x => x.drop 8)).take ng |>.map c.f64) := by
  induction bands generalizing n q with
  | nil => subst hn; exact ⟨[], rfl, rfl, by simp⟩
  | cons r bands ih =>
    subst hn
    obtain ⟨⟨hp, hpost⟩, hw⟩ := h r (by simp)
    obtain ⟨l', t, e, ht, hl, hm⟩ := items_early (q ++ r.1.pre) (by simp [hq, hp]) r.2 ng hw (r.1.post ++ recordsOf bands)
    obtain ⟨out, ho, holen, hget⟩ := ih rfl (fun x hx => h x (by simp [hx])) r.1.post hpost
    refine ⟨l'.map c.c128 :: out, ?_, by simp [holen], ?_⟩
    · have e0 : q ++ recordsOf (r :: bands) = (q ++ r.1.pre) ++ (r.2.flatten ++ (r.1.post ++ recordsOf bands)) := by
        simp [recordsOf, record, List.append_assoc]
      rw [e0, List.length_cons, records]
      simp only [e]
      rw [assignRow_ok (by rw [List.length_map, hl])]
      simp only
      rw [drop_mark ht, ho]
    · intro i r' hr'
      cases i with
      | zero =>
        simp only [List.getElem?_cons_zero, Option.some.injEq] at hr'
        subst hr'
        refine ⟨q, rfl, ?_⟩
        simp only [List.getElem?_cons_zero, Option.map_some, Option.some.injEq]
        rw [← hm, List.map_map, List.map_map]
        rfl
      | succ i =>
        simp only [List.getElem?_cons_succ] at hr' ⊢
        obtain ⟨q', h1, h2⟩ := hget i r' hr'
        refine ⟨q', ?_, h2⟩
        rw [h1, if_neg (Nat.succ_ne_zero i)]
        cases i with
        | zero => rfl
        | succ i => simp
/-! ## The whole function -/

theorem wfcFiles_eq (dir : List (List Char × Bytes)) : (dir.filter fun f => isWfc f.1).map Prod.snd = wfcFiles dir := by
  unfold wfcFiles isWfc
  congr 1
  apply List.filter_congr
  intro f _
  rw [Bool.eq_iff_iff]
  simp [List.isPrefixOf_iff_prefix, List.isSuffixOf_iff_suffix]

/-- The entry made from one file. -/
noncomputable def entryOf (c : Codec) (B : Mat ℝ 3) (f : WaveFile × ℕ × ℕ × ℕ) : (Fin 3 → ℝ) × List (List ℤ) × List (List (List ℂ)) :=
  (B⁻¹.mulVec (waveOf c f.1 f.2.1 f.2.2.1).xk, (waveOf c f.1 f.2.1 f.2.2.1).g, (waveOf c f.1 f.2.1 f.2.2.1).evc)

theorem entryOf_says (c : Codec) {B : Mat ℝ 3} (hB : B.det ≠ 0) {w : WaveFile} {ng np nb : ℕ} (h : w.Ok c.i32 ng np nb) :
    w.Says c.i32 c.f64 B ng np nb (entryOf c B (w, ng, np, nb)) := by
  obtain ⟨m1, m2⟩ := rows_spec 3 ng (w.mill.map c.i32) (by rw [List.length_map, h.mill.1, mul_comm])
  refine ⟨?_, m1, ?_, ?_, ?_⟩
  · intro a
    have : B.mulVec (entryOf c B (w, ng, np, nb)).1 = fun i : Fin 3 => c.f64 (w.xk.getD i.val []) := by
      show B.mulVec (B⁻¹.mulVec _) = _
      rw [Matrix.mulVec_mulVec, Matrix.mul_nonsing_inv _ (isUnit_iff_ne_zero.2 hB), Matrix.one_mulVec]
      rfl
    rw [this]
    have hl : a.val < w.xk.length := by rw [h.xk.1]; exact a.2
    rw [List.getElem?_eq_getElem hl, Option.map_some]
    simp only
    rw [List.getD_eq_getElem _ _ hl]
  · intro g hg
    obtain ⟨a, b⟩ := m2 g hg
    refine ⟨_, ?_, a, fun p hp => ?_⟩
    · show (rows 3 ng (w.mill.map c.i32))[g]? = _
      rw [List.getElem?_eq_getElem (by omega), List.getD_eq_getElem _ _ (by omega)]
    · rw [b p hp, List.getElem?_map]
  · show (w.bands.map _).length = nb
    rw [List.length_map, h.count]
  · intro n r hr
    obtain ⟨_, hw⟩ := h.bands r (List.mem_of_getElem? hr)
    obtain ⟨b1, b2⟩ := rows_spec np ng (r.2.map c.c128) (by rw [List.length_map, hw.1, mul_comm])
    refine ⟨rows np ng (r.2.map c.c128), ?_, b1, ?_⟩
    · show (w.bands.map _)[n]? = _
      rw [List.getElem?_map, hr]
      rfl
    · intro g hg
      obtain ⟨a, b⟩ := b2 g hg
      refine ⟨_, ?_, a, fun p hp => ?_⟩
      · rw [List.getElem?_eq_getElem (by omega), List.getD_eq_getElem _ _ (by omega)]
      · rw [b p hp, List.getElem?_map]
        rfl

theorem readWavefunctions_ok (c : Codec) (dir : List (List Char × Bytes)) (fs : List (WaveFile × ℕ × ℕ × ℕ)) (B : Mat ℝ 3)
    (hdir : wfcFiles dir = fs.map fun f => f.1.bytes)
    (hok : ∀ f ∈ fs, f.1.Ok c.i32 f.2.1 f.2.2.1 f.2.2.2 ∧ columns c.f64 f.1.b1 f.1.b2 f.1.b3 = B) (hB : B.det ≠ 0)
    (hne : fs ≠ []) (hik : ∀ f ∈ fs, 1 ≤ c.i32 f.1.ik ∧ c.i32 f.1.ik ≤ fs.length) :
    ∃ out, readWavefunctions c dir = .ok out ∧ out.length = fs.length ∧ ∀ j < fs.length, ∃ i f, fs[i]? = some f ∧
      out[j]? = some (entryOf c B f) ∧
      ((c.i32 f.1.ik = j + 1 ∧ ∀ i' f', i < i' → fs[i']? = some f' → c.i32 f'.1.ik ≠ j + 1) ∨
       (i = 0 ∧ ∀ f' ∈ fs, c.i32 f'.1.ik ≠ j + 1)) := by
  have hr := readWaves_ok c fs B hok none (by simp)
  rw [if_neg hne] at hr
  set order := fs.map fun f => c.i32 f.1.ik with horder
  have ho : (fs.map fun f => waveOf c f.1 f.2.1 f.2.2.1).map Wave.ik = order := by
    rw [List.map_map]
    rfl
  have hol : order.length = fs.length := by rw [horder, List.length_map]
  obtain ⟨inv, hi, hlen, hinv⟩ := invOrder_ok (order := order) (by simpa [horder] using hne) (by
    intro z hz
    obtain ⟨f, hf, rfl⟩ := List.mem_map.1 hz
    rw [hol]
    exact hik f hf)
  refine ⟨inv.map fun i => (B⁻¹.mulVec ((fs.map fun f => waveOf c f.1 f.2.1 f.2.2.1).getD i ⟨0, 0, [], []⟩).xk,
      ((fs.map fun f => waveOf c f.1 f.2.1 f.2.2.1).getD i ⟨0, 0, [], []⟩).g,
      ((fs.map fun f => waveOf c f.1 f.2.1 f.2.2.1).getD i ⟨0, 0, [], []⟩).evc), ?_, ?_, ?_⟩
  · rw [readWavefunctions, wfcFiles_eq, hdir, hr]
    simp only [bind, Except.bind]
    rw [ho, hi]
    simp only
    rw [if_neg hB]
    rfl
  · rw [List.length_map, hlen, hol]
  · intro j hj
    obtain ⟨i1, i2⟩ := hinv j (by rw [hol]; exact hj)
    have entry : ∀ i f, fs[i]? = some f → inv[j]? = some i → (inv.map fun i =>
        (B⁻¹.mulVec ((fs.map fun f => waveOf c f.1 f.2.1 f.2.2.1).getD i ⟨0, 0, [], []⟩).xk,
          ((fs.map fun f => waveOf c f.1 f.2.1 f.2.2.1).getD i ⟨0, 0, [], []⟩).g,
          ((fs.map fun f => waveOf c f.1 f.2.1 f.2.2.1).getD i ⟨0, 0, [], []⟩).evc))[j]? = some (entryOf c B f) := by
      intro i f hf hij
      have : (fs.map fun f => waveOf c f.1 f.2.1 f.2.2.1).getD i ⟨0, 0, [], []⟩ = waveOf c f.1 f.2.1 f.2.2.1 := by
        rw [List.getD_eq_getElem?_getD, List.getElem?_map, hf]
        rfl
      rw [List.getElem?_map, hij, Option.map_some]
      simp only [this]
      rfl
    by_cases hex : ∃ f ∈ fs, c.i32 f.1.ik = (j : ℤ) + 1
    · -- the last such file
      have : ∃ i : ℕ, (∃ f : WaveFile × ℕ × ℕ × ℕ, fs[i]? = some f ∧ c.i32 f.1.ik = (j : ℤ) + 1) ∧
          ∀ (i' : ℕ) (f' : WaveFile × ℕ × ℕ × ℕ), i < i' → fs[i']? = some f' → c.i32 f'.1.ik ≠ (j : ℤ) + 1 := by
        obtain ⟨f, hf, hfj⟩ := hex
        obtain ⟨i0, hi0⟩ := List.mem_iff_getElem?.1 hf
        clear i1 i2 entry hi hinv
        by_contra hcon
        push Not at hcon
        have grow : ∀ n : ℕ, ∃ i : ℕ, n ≤ i ∧ ∃ f : WaveFile × ℕ × ℕ × ℕ, fs[i]? = some f ∧ c.i32 f.1.ik = (j : ℤ) + 1 := by
          intro n
          induction n with
          | zero => exact ⟨i0, Nat.zero_le _, f, hi0, hfj⟩
          | succ n ih =>
            obtain ⟨i, hni, hif⟩ := ih
            obtain ⟨i', f', hlt, h1, h2⟩ := hcon i hif
            exact ⟨i', by omega, f', h1, h2⟩
        obtain ⟨i, hi, g, hg, _⟩ := grow fs.length
        rw [List.getElem?_eq_none hi] at hg
        cases hg
      obtain ⟨i, ⟨f, hf, hfj⟩, hlast⟩ := this
      refine ⟨i, f, hf, entry i f hf (i1 i ?_ ?_), Or.inl ⟨hfj, hlast⟩⟩
      · rw [horder, List.getElem?_map, hf, Option.map_some, hfj]
      · intro i' hlt hc
        rw [horder, List.getElem?_map, Option.map_eq_some_iff] at hc
        obtain ⟨f', h1, h2⟩ := hc
        exact hlast i' f' hlt h1 h2
    · push Not at hex
      obtain ⟨f, hf⟩ : ∃ f, fs[0]? = some f := by
        cases fs with
        | nil => exact absurd rfl hne
        | cons f fs => exact ⟨f, rfl⟩
      refine ⟨0, f, hf, entry 0 f hf (i2 ?_), Or.inr ⟨rfl, hex⟩⟩
      intro z hz
      obtain ⟨f', hf', rfl⟩ := List.mem_map.1 hz
      exact hex f' hf'

end TB.QeBin
