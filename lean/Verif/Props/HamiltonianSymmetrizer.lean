import Mathlib.Algebra.BigOperators.Group.List.Lemmas
import Verif.Props.HamiltonianSymmetryEx

/-!
# C93: `HamiltonianSymmetry.symmetrizer` computes the same as `symmetrize`
-/

namespace TB.HS

open Spec Matrix TB.UR

set_option linter.unusedSectionVars false

variable {K : Type} [Field K] [LinearOrder K] [IsStrictOrderedRing K] {d m : ℕ}
variable {F : Type} [Field F] [StarRing F] [DecidableEq F]

/-! ### Sums of blocks -/

theorem addBlock_self {o : Fin m → Orb K F d} (res : ℕ → BMat o) (i : ℕ) (a b : Fin m)
    (X : Matrix (Fin (o a).N) (Fin (o b).N) F) : addBlock res i a b X i a b = res i a b + X := by
  simp [addBlock]

theorem addBlock_ne {o : Fin m → Orb K F d} (res : ℕ → BMat o) {i i' : ℕ} {a a' b b' : Fin m}
    (X : Matrix (Fin (o a).N) (Fin (o b).N) F) (h : ¬ (i' = i ∧ a' = a ∧ b' = b)) :
    addBlock res i a b X i' a' b' = res i' a' b' := by
  simp only [addBlock, h, dite_false]

theorem addBlock_eq {o : Fin m → Orb K F d} (res : ℕ → BMat o) (i i' : ℕ) (a a' b b' : Fin m)
    (X : Matrix (Fin (o a).N) (Fin (o b).N) F) :
    addBlock res i a b X i' a' b' = res i' a' b' + addBlock 0 i a b X i' a' b' := by
  by_cases h : i' = i ∧ a' = a ∧ b' = b
  · obtain ⟨rfl, rfl, rfl⟩ := h
    rw [addBlock_self, addBlock_self]
    simp
  · rw [addBlock_ne _ _ h, addBlock_ne _ _ h]
    simp

theorem foldl_addBlock {α : Type} {o : Fin m → Orb K F d} (l : List α) (gi : α → ℕ) (ga gb : α → Fin m)
    (X : (e : α) → Matrix (Fin (o (ga e)).N) (Fin (o (gb e)).N) F) (res : ℕ → BMat o) (i : ℕ) (a b : Fin m) :
    l.foldl (fun res e => addBlock res (gi e) (ga e) (gb e) (X e)) res i a b =
      res i a b + (l.map fun e => addBlock 0 (gi e) (ga e) (gb e) (X e) i a b).sum := by
  induction l generalizing res with
  | nil => simp
  | cons e l ih =>
    rw [List.foldl_cons, ih, addBlock_eq, List.map_cons, List.sum_cons, add_assoc]

theorem sum_single {α M : Type} [DecidableEq α] [AddCommMonoid M] {l : List α} (hn : l.Nodup) {c : α} (hc : c ∈ l) (f : α → M)
    (hf : ∀ x ∈ l, x ≠ c → f x = 0) : (l.map f).sum = f c := by
  rw [List.sum_map_eq_nsmul_single c f (fun x hx hxl => hf x hxl hx), List.count_eq_one_of_mem hn hc, one_smul]

theorem sum_flatMap {α β M : Type} [AddCommMonoid M] (l : List α) (g : α → List β) (f : β → M) :
    ((l.flatMap g).map f).sum = (l.map fun x => ((g x).map f).sum).sum := by
  induction l with
  | nil => simp
  | cons x l ih => simp [List.flatMap_cons, ih]

theorem nodup_zipIdx {α : Type} (l : List α) : l.zipIdx.Nodup := by
  have h : (l.zipIdx.map Prod.snd).Nodup := by
    rw [List.zipIdx_map_snd]
    exact List.nodup_range'
  exact h.of_map

/-- A sum over a table that is made position by position and block by block. -/
theorem sum_table {α β : Type} [DecidableEq α] {o : Fin m → Orb K F d} (ns : List α) (T : α × ℕ → Fin m → Fin m → List β)
    (gi : β → ℕ) (ga gb : β → Fin m) (X : (e : β) → Matrix (Fin (o (ga e)).N) (Fin (o (gb e)).N) F)
    (hT : ∀ p a b, ∀ e ∈ T p a b, gi e = p.2 ∧ ga e = a ∧ gb e = b) (i : ℕ) (hi : i < ns.length) (a b : Fin m) :
    ((ns.zipIdx.flatMap fun p => (List.finRange m).flatMap fun a => (List.finRange m).flatMap fun b => T p a b).map
      fun e => addBlock 0 (gi e) (ga e) (gb e) (X e) i a b).sum =
    ((T (ns[i], i) a b).map fun e => addBlock 0 (gi e) (ga e) (gb e) (X e) i a b).sum := by
  have hz : ∀ p a' b', ¬ (i = p.2 ∧ a = a' ∧ b = b') →
      ((T p a' b').map fun e => addBlock 0 (gi e) (ga e) (gb e) (X e) i a b).sum = 0 := by
    intro p a' b' h
    refine List.sum_eq_zero fun x hx => ?_
    obtain ⟨e, he, rfl⟩ := List.mem_map.1 hx
    obtain ⟨h1, h2, h3⟩ := hT p a' b' e he
    rw [addBlock_ne]
    · rfl
    · rw [h1, h2, h3]; exact h
  have hmem : (ns[i], i) ∈ ns.zipIdx := List.mem_zipIdx_iff_getElem?.2 (by simp [hi])
  rw [sum_flatMap, sum_single (nodup_zipIdx ns) hmem, sum_flatMap, sum_single (List.nodup_finRange m) (List.mem_finRange a),
    sum_flatMap, sum_single (List.nodup_finRange m) (List.mem_finRange b)]
  · intro b' _ hb
    exact hz _ _ _ fun h => hb h.2.2.symm
  · intro a' _ ha
    rw [sum_flatMap]
    refine List.sum_eq_zero fun x hx => ?_
    obtain ⟨b', -, rfl⟩ := List.mem_map.1 hx
    exact hz _ _ _ fun h => ha h.2.1.symm
  · intro p hp hpi
    rw [sum_flatMap]
    refine List.sum_eq_zero fun x hx => ?_
    obtain ⟨a', -, rfl⟩ := List.mem_map.1 hx
    rw [sum_flatMap]
    refine List.sum_eq_zero fun y hy => ?_
    obtain ⟨b', -, rfl⟩ := List.mem_map.1 hy
    refine hz _ _ _ fun h => hpi ?_
    have h1 := List.mem_zipIdx_iff_getElem?.1 hp
    rw [← h.1] at h1
    rw [List.getElem?_eq_getElem hi] at h1
    exact Prod.ext (Option.some.inj h1).symm h.1.symm

/-! ### The dictionary -/

theorem mergeEntry_keys {α : Type} [DecidableEq α] (T : List (α × (ℕ × ℕ))) (key : α) (k : ℕ) (h : (T.map Prod.fst).Nodup) :
    ((mergeEntry T key k).map Prod.fst).Nodup := by
  unfold mergeEntry
  split_ifs with hk
  · have : (T.map fun e => if e.1 = key then (e.1, (e.2.1, e.2.2 + 1)) else e).map Prod.fst = T.map Prod.fst := by
      rw [List.map_map]
      refine List.map_congr_left fun e _ => ?_
      simp only [Function.comp]
      split_ifs <;> rfl
    rw [this]
    exact h
  · rw [List.map_append, List.nodup_append]
    exact ⟨h, by simp, by
      intro x hx y hy e
      simp only [List.map_cons, List.map_nil, List.mem_singleton] at hy
      exact hk (hy ▸ e ▸ hx)⟩

theorem mergeEntry_mem {α : Type} [DecidableEq α] (T : List (α × (ℕ × ℕ))) (key : α) (k : ℕ) (P : α → ℕ → Prop)
    (h : ∀ e ∈ T, P e.1 e.2.1) (hk : P key k) : ∀ e ∈ mergeEntry T key k, P e.1 e.2.1 := by
  unfold mergeEntry
  split_ifs
  · intro e he
    obtain ⟨e', he', rfl⟩ := List.mem_map.1 he
    split_ifs <;> exact h e' he'
  · intro e he
    rcases List.mem_append.1 he with he | he
    · exact h e he
    · simp only [List.mem_singleton] at he
      subst he
      exact hk

theorem mergeEntry_sum {α M : Type} [DecidableEq α] [AddCommMonoid M] (T : List (α × (ℕ × ℕ))) (key : α) (k : ℕ)
    (h : (T.map Prod.fst).Nodup) (φ : α → M) :
    ((mergeEntry T key k).map fun e => e.2.2 • φ e.1).sum = (T.map fun e => e.2.2 • φ e.1).sum + φ key := by
  unfold mergeEntry
  split_ifs with hk
  · induction T with
    | nil => simp at hk
    | cons e T ih =>
      simp only [List.map_cons, List.nodup_cons] at h
      by_cases he : e.1 = key
      · have hn : key ∉ T.map Prod.fst := he ▸ h.1
        have : (T.map fun e => if e.1 = key then (e.1, (e.2.1, e.2.2 + 1)) else e) = T := by
          conv_rhs => rw [← List.map_id T]
          refine List.map_congr_left fun e' he' => ?_
          rw [if_neg]
          · rfl
          · exact fun h' => hn (h' ▸ List.mem_map_of_mem he')
        simp only [List.map_cons, he, if_true, List.sum_cons]
        rw [this, add_smul, one_smul]
        exact add_right_comm _ _ _
      · have hk' : key ∈ T.map Prod.fst := by
          rw [List.map_cons, List.mem_cons] at hk
          exact hk.resolve_left fun e' => he e'.symm
        simp only [List.map_cons, he, if_false, List.sum_cons]
        rw [ih h.2 hk', add_assoc]
  · simp

/-- The sum over the table of one block. -/
theorem sTable_sum {M : Type} [AddCommMonoid M] (o : Fin m → Orb K F d) (ns : List (Fin d → K)) (r : Fin d → K) (a b : Fin m)
    (φ : Key o a b → M) (L : List (Mat K d × ℕ)) (T : List (Key o a b × (ℕ × ℕ))) (h : (T.map Prod.fst).Nodup)
    (hP : ∀ e ∈ T, e.1.2 = ((o a).rep.U.getD e.2.1 0, (o b).rep.U.getD e.2.1 0)) :
    (∀ e ∈ sTable o ns r a b L T, e.1.2 = ((o a).rep.U.getD e.2.1 0, (o b).rep.U.getD e.2.1 0)) ∧
    ((sTable o ns r a b L T).map fun e => e.2.2 • φ e.1).sum =
      if ∀ e ∈ L, Found ns (moved o e.1 a b r) then
        (T.map fun e => e.2.2 • φ e.1).sum + (L.map fun e => φ ((tryNeighbor ns (moved o e.1 a b r)).getD (0, false),
          ((o a).rep.U.getD e.2 0, (o b).rep.U.getD e.2 0))).sum
      else 0 := by
  induction L generalizing T with
  | nil => exact ⟨hP, by simp [sTable]⟩
  | cons e L ih =>
    obtain ⟨s, k⟩ := e
    have hm : s.mulVec (r - (o a).pos + (o b).pos) + (o a).pos - (o b).pos = moved o s a b r := by
      unfold moved
      rw [show r - (o a).pos + (o b).pos = r + ((o b).pos - (o a).pos) by abel]
      abel
    unfold sTable
    rw [hm]
    by_cases hf : Found ns (moved o s a b r)
    · have : ∃ jm, tryNeighbor ns (moved o s a b r) = some jm := by
        rw [tryNeighbor_eq]
        rcases hf with h1 | h1
        · exact ⟨_, by rw [if_pos h1]⟩
        · by_cases h2 : moved o s a b r ∈ ns
          · exact ⟨_, by rw [if_pos h2]⟩
          · exact ⟨_, by rw [if_neg h2, if_pos h1]⟩
      obtain ⟨jm, hjm⟩ := this
      rw [hjm]
      obtain ⟨i1, i2⟩ := ih (mergeEntry T (jm, ((o a).rep.U.getD k 0, (o b).rep.U.getD k 0)) k) (mergeEntry_keys _ _ _ h)
        (mergeEntry_mem T _ k (fun key k => key.2 = ((o a).rep.U.getD k 0, (o b).rep.U.getD k 0)) hP rfl)
      refine ⟨i1, ?_⟩
      simp only
      rw [i2, mergeEntry_sum _ _ _ h]
      simp only [List.forall_mem_cons, hf, true_and, List.map_cons, List.sum_cons, hjm, Option.getD_some, add_assoc]
    · have : tryNeighbor ns (moved o s a b r) = none := by
        rw [tryNeighbor_eq]
        simp only [Found, not_or] at hf
        rw [if_neg hf.1, if_neg hf.2]
      rw [this]
      simp [hf]

/-! ### The origin -/

theorem originOf_eq {ns : List (Fin d → K)} (hn : ns.Nodup) :
    originOf ns = if 0 ∈ ns then some (ns.idxOf 0) else none := by
  have key : ∀ (l : List (Fin d → K)) (n : ℕ) (acc : Option ℕ), l.Nodup →
      (l.zipIdx n).foldl (fun acc p => if p.1 = 0 then some p.2 else acc) acc =
        if (0 : Fin d → K) ∈ l then some (n + l.idxOf 0) else acc := by
    intro l
    induction l with
    | nil => simp
    | cons r l ih =>
      intro n acc hl
      rw [List.nodup_cons] at hl
      rw [List.zipIdx_cons, List.foldl_cons, ih _ _ hl.2]
      by_cases hr : r = 0
      · subst hr
        simp [hl.1]
      · by_cases h0 : (0 : Fin d → K) ∈ l
        · simp [h0, List.idxOf_cons_ne _ hr, Nat.add_assoc, Nat.add_comm 1]
        · have : ¬ (0 : Fin d → K) = r := fun e => hr e.symm
          simp [h0, hr, this]
  unfold originOf
  rw [key ns 0 none hn]
  simp

/-! ### The theorem -/

theorem list_eq_range_map {α : Type} (l : List α) (c : α) : l = (List.range l.length).map fun i => l.getD i c := by
  refine List.ext_getElem (by simp) fun i h1 h2 => ?_
  simp only [List.getElem_map, List.getElem_range]
  rw [List.getD_eq_getElem _ _ h1]

/-- **C93** For every list of pairwise different positions (not empty) and every list of matrices, the function prepared by `symmetrizer`
and `symmetrize` have the same outcome (result or exception). -/
theorem C93_symmetrizer (h : HSym K F d) (ns : List (Fin d → K)) (hn : ns.Nodup) (hne : ns ≠ []) (H : List (BMat h.orbs.get)) :
    h.symmetrizer ns H = h.symmetrize H ns := by
  unfold HSym.symmetrizer HSym.symmetrize symmetrizerFunc
  by_cases hl : ns.length = H.length
  swap
  · rw [if_pos hl, if_pos hl]
  have hemp : ns.isEmpty = false := by simpa using hne
  have hl' : ¬ ns.length ≠ H.length := fun e => e hl
  rw [if_neg hl', if_neg hl', hemp, if_neg (show ¬ (false = true) by simp)]
  have h1 : hermAt (originOf ns) H = hermOrigin ns H := by
    rw [originOf_eq hn]
    unfold hermOrigin hermAt
    by_cases h0 : (0 : Fin d → K) ∈ ns
    · simp [h0]
    · simp [h0]
  simp only [h1]
  set H1 := hermOrigin ns H with hH1
  have hl1 : H1.length = ns.length := by rw [hH1, hermOrigin_length, hl]
  -- the inversion
  have h2 : (if h.sym.inversion = true then
        (List.range ns.length).map fun i => (2 : F)⁻¹ • (if h.sym.inversion = true then invTable h.orbs.get ns else []).foldl
          (fun res e => addBlock res e.i e.a e.b
            (e.inv • (if e.mirror = true then conjT (H1.getD e.j 0) else H1.getD e.j 0) e.a e.b)) (fun i => H1.getD i 0) i
      else H1) = if h.sym.inversion = true then invStep h.orbs.get ns H1 else H1 := by
    split_ifs with hi
    · have hlen : (invStep h.orbs.get ns H1).length = ns.length := by simp [invStep]
      rw [list_eq_range_map (invStep h.orbs.get ns H1) 0, hlen]
      refine List.map_congr_left fun i hi' => ?_
      have hi' := List.mem_range.1 hi'
      unfold invStep
      rw [getD_zipIdx_map _ _ _ _ hi']
      congr 1
      funext a b
      rw [foldl_addBlock _ InvEntry.i InvEntry.a InvEntry.b]
      simp only [Pi.add_apply]
      congr 1
      unfold invTable
      have := sum_table (o := h.orbs.get) ns (fun p a b => [(match tryNeighbor ns (-(p.1 - (h.orbs.get a).pos + (h.orbs.get b).pos) +
            (h.orbs.get a).pos - (h.orbs.get b).pos) with
          | some (j, mirror) => ⟨p.2, a, b, j, mirror, parity (h.orbs.get a) * parity (h.orbs.get b)⟩
          | none => ⟨p.2, a, b, p.2, false, -1⟩ : InvEntry F h.orbs.length)]) InvEntry.i InvEntry.a InvEntry.b
        (fun e => e.inv • (if e.mirror = true then conjT (H1.getD e.j 0) else H1.getD e.j 0) e.a e.b) ?_ i hi' a b
      · simp only [← List.map_eq_flatMap] at this
        refine this.trans ?_
        have hp : -(ns[i] - (h.orbs.get a).pos + (h.orbs.get b).pos) + (h.orbs.get a).pos - (h.orbs.get b).pos =
            -ns[i] - (2 : K) • ((h.orbs.get b).pos - (h.orbs.get a).pos) := by module
        simp only [List.map_cons, List.map_nil, List.sum_cons, List.sum_nil, add_zero, fetch, hp]
        rcases htn : tryNeighbor ns (-ns[i] - (2 : K) • ((h.orbs.get b).pos - (h.orbs.get a).pos)) with _ | ⟨j, mir⟩
        · simp only [addBlock_self]
          simp
        · simp only [addBlock_self]
          simp
      · intro p a b e he
        simp only [List.mem_singleton] at he
        subst he
        split <;> exact ⟨rfl, rfl, rfl⟩
    · rfl
  rw [h2]
  set H2 := if h.sym.inversion = true then invStep h.orbs.get ns H1 else H1 with hH2
  congr 1
  have hlen : (meanStep h.sym.S h.orbs.get ns H2).length = ns.length := by simp [meanStep]
  rw [list_eq_range_map (meanStep h.sym.S h.orbs.get ns H2) 0, hlen]
  refine List.map_congr_left fun i hi' => ?_
  have hi' := List.mem_range.1 hi'
  unfold meanStep
  rw [getD_map_lt _ _ _ _ hi']
  congr 1
  funext a b
  rw [foldl_addBlock _ SymEntry.i SymEntry.a SymEntry.b]
  unfold totalTable
  rw [sum_table (o := h.orbs.get) ns (fun p a b => (sTable h.orbs.get ns p.1 a b h.sym.S.zipIdx []).map fun e =>
    (⟨p.2, e.2.1, a, b, e.1.1.1, e.1.1.2, e.2.2⟩ : SymEntry h.orbs.length)) SymEntry.i SymEntry.a SymEntry.b _ ?_ i hi' a b]
  · rw [List.map_map, accBlock_eq]
    obtain ⟨hs1, hs2⟩ := sTable_sum h.orbs.get ns ns[i] a b (fun key : Key h.orbs.get a b => key.2.1.conjTranspose *
      (if key.1.2 = true then conjT (H2.getD key.1.1 0) else H2.getD key.1.1 0) a b * key.2.2) h.sym.S.zipIdx [] (by simp) (by simp)
    have e1 : (List.map ((fun e => addBlock 0 e.i e.a e.b
          (((e.fac : F) • ((h.orbs.get e.a).rep.U.getD e.k 0).conjTranspose) *
            (if e.mirror = true then conjT (H2.getD e.j 0) else H2.getD e.j 0) e.a e.b * (h.orbs.get e.b).rep.U.getD e.k 0) i a b) ∘
          fun e => (⟨i, e.2.1, a, b, e.1.1.1, e.1.1.2, e.2.2⟩ : SymEntry h.orbs.length))
          (sTable h.orbs.get ns ns[i] a b h.sym.S.zipIdx [])) =
        (sTable h.orbs.get ns ns[i] a b h.sym.S.zipIdx []).map fun e => e.2.2 • (e.1.2.1.conjTranspose *
          (if e.1.1.2 = true then conjT (H2.getD e.1.1.1 0) else H2.getD e.1.1.1 0) a b * e.1.2.2) := by
      refine List.map_congr_left fun e he => ?_
      have hu := hs1 e he
      simp only [Function.comp, addBlock_self]
      rw [Matrix.smul_mul, Matrix.smul_mul, Nat.cast_smul_eq_nsmul, hu]
      simp
    rw [e1, hs2]
    simp only [Pi.zero_apply, zero_add, List.map_nil, List.sum_nil]
    by_cases hf : ∀ e ∈ h.sym.S.zipIdx, Found ns (moved h.orbs.get e.1 a b ns[i])
    · rw [if_pos hf, if_pos hf]
      refine congrArg List.sum (List.map_congr_left fun e he => ?_)
      have := fetch_eq (o := h.orbs.get) ns H2 (moved h.orbs.get e.1 a b ns[i])
      rw [if_pos (hf e he)] at this
      unfold fetch at this
      rcases htn : tryNeighbor ns (moved h.orbs.get e.1 a b ns[i]) with _ | ⟨j, mir⟩
      · rw [htn] at this; cases this
      · rw [htn] at this
        have := Option.some.inj this
        simp only [Option.getD_some]
        rw [← this]
    · rw [if_neg hf, if_neg hf]
  · intro p a b e he
    obtain ⟨e', -, rfl⟩ := List.mem_map.1 he
    exact ⟨rfl, rfl, rfl⟩

/-- The prepared function with the positions and matrices of the example for C92. -/
example : ∃ R, exH.symmetrizer exNs (constH exH [1, 3]) = .ok R ∧ ents R = [[1, -1, -1, 1], [3, 0, 1, 3]] := by
  rw [C93_symmetrizer exH exNs exNs_half.nodup (by decide)]
  exact exH_symmetrize

/-- Two orbitals, no symmetry. -/
def exTriv : HSym ℚ ℚ 3 :=
  ⟨⟨[1], false⟩, [⟨1, ⟨⟨[1], false⟩, [1], 1⟩, ![0, 0, 0], "A"⟩, ⟨1, ⟨⟨[1], false⟩, [1], 1⟩, ![0, 0, 0], "B"⟩]⟩

/-- **C93** (disagreement) If the position zero is listed twice the two functions differ: one makes the first matrix Hermitian,
the other one the last. -/
theorem C93_defect_duplicate : ∃ R R', exTriv.symmetrize [fun a b => Matrix.of fun _ _ => if a < b then 2 else 0,
      fun a b => Matrix.of fun _ _ => if a < b then 2 else 0] [![0, 0, 0], ![0, 0, 0]] = .ok R ∧
    exTriv.symmetrizer [![0, 0, 0], ![0, 0, 0]] [fun a b => Matrix.of fun _ _ => if a < b then 2 else 0,
      fun a b => Matrix.of fun _ _ => if a < b then 2 else 0] = .ok R' ∧
    ents R = [[0, 1, 1, 0], [0, 1, 1, 0]] ∧ ents R' = [[0, 2, 0, 0], [0, 2, 0, 0]] := by
  obtain ⟨R, h1, h2⟩ := okAnd_iff.1 (show okAnd (exTriv.symmetrize [fun a b => Matrix.of fun _ _ => if a < b then 2 else 0,
      fun a b => Matrix.of fun _ _ => if a < b then 2 else 0] [![0, 0, 0], ![0, 0, 0]]) (fun R =>
      decide (ents R = [[0, 1, 1, 0], [0, 1, 1, 0]])) = true by decide +kernel)
  obtain ⟨R', h3, h4⟩ := okAnd_iff.1 (show okAnd (exTriv.symmetrizer [![0, 0, 0], ![0, 0, 0]]
      [fun a b => Matrix.of fun _ _ => if a < b then 2 else 0,
      fun a b => Matrix.of fun _ _ => if a < b then 2 else 0]) (fun R =>
      decide (ents R = [[0, 2, 0, 0], [0, 2, 0, 0]])) = true by decide +kernel)
  exact ⟨R, R', h1, h3, of_decide_eq_true h2, of_decide_eq_true h4⟩

end TB.HS
