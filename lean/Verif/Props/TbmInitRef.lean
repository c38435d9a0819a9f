import Verif.Lemmas.TbmInitRef
import Verif.Props.InitRef
import Verif.Props.Naive
import Verif.Props.TightBinding

/-!
# C126: `TightBindingModel.init_from_ref`
-/

namespace TB.PropsTbmInit
open Matrix TB TB.TbmInit

variable {d e n : ℕ}

open Classical in
/-- Number of states with energy `x`. -/
noncomputable def Spec.states (bands : Fin n → ℝ) (x : ℝ) : ℕ := (Finset.univ.filter fun j => bands j = x).card

open Classical in
/-- How the energies `row` at `k = 0` (after rounding) turn up in the start values `bands`. -/
structure Spec.Start (ρ : UR.Rep ℝ ℂ d n) (row : List ℝ) (ordered : Bool) (bands : Fin n → ℝ) : Prop where
  /-- Every energy is carried by exactly one class of coupled states, whatever its degeneracy ... -/
  carried : ∀ x ∈ row, ordered = true ∨ row.count x ≤ d → ∃ i, ∀ j, bands j = x ↔ UR.Coupled ρ i j
  /-- ... except that energies of a degeneracy above the dimension are left out. -/
  dropped : ordered = false → ∀ x ∈ row, d < row.count x → ∀ j, bands j ≠ x
  /-- All other states are below the lowest energy. -/
  rest : ∀ j, bands j ∉ row → ∃ m ∈ row, (∀ y ∈ row, m ≤ y) ∧ bands j = m - 1 / 100
  /-- No more states are added to the energies than the model has bands in addition to the data. -/
  extra : row.length ≤ n → (row.dedup.map fun x => max 0 ((Spec.states bands x : ℤ) - row.count x)).sum ≤ (n : ℤ) - row.length
  /-- Less degenerate energies get smaller classes. -/
  sizes : ordered = false → ∀ x ∈ row, ∀ y ∈ row, row.count x < row.count y → row.count y ≤ d → Spec.states bands x ≤ Spec.states bands y
  /-- With `use_repr_order` lower energies start earlier ... -/
  order : ordered = true → ∀ x ∈ row, ∀ j, x < bands j → bands j ∈ row → ∃ i < j, bands i = x
  /-- ... and only the lowest and the highest may have a wrong number of states. -/
  middle : ordered = true → ∀ x ∈ row, (∃ y ∈ row, y < x) → (∃ y ∈ row, x < y) → Spec.states bands x = row.count x

/-! ## helpers -/

open Classical in
theorem mem_items {dim : ℕ} {row unique : List ℝ} {p : ℕ × ℝ} : p ∈ items dim row unique ↔ p.2 ∈ unique ∧ row.count p.2 = p.1 + 1 ∧ p.1 < dim := by
  obtain ⟨i, x⟩ := p
  simp only [items, List.mem_flatMap, List.mem_range, List.mem_map, List.mem_filter, beq_iff_eq, Prod.mk.injEq]
  constructor
  · rintro ⟨a, h1, b, ⟨h2, h3⟩, rfl, rfl⟩; exact ⟨h2, h3, h1⟩
  · rintro ⟨h1, h2, h3⟩; exact ⟨i, h3, x, ⟨h1, h2⟩, rfl, rfl⟩

open Classical in
theorem items_sorted (dim : ℕ) (row unique : List ℝ) : (items dim row unique).Pairwise fun p q => p.1 ≤ q.1 := by
  unfold items
  rw [List.pairwise_flatMap]
  constructor
  · intro i _
    rw [List.pairwise_map]
    exact List.pairwise_of_forall fun _ _ => le_refl _
  · refine List.pairwise_lt_range.imp ?_
    rintro a b hab x hx y hy
    obtain ⟨_, -, rfl⟩ := List.mem_map.1 hx
    obtain ⟨_, -, rfl⟩ := List.mem_map.1 hy
    exact hab.le

open Classical in
theorem items_nodup (dim : ℕ) (row unique : List ℝ) (h : unique.Nodup) : ((items dim row unique).map Prod.snd).Nodup := by
  unfold items
  rw [List.map_flatMap, List.nodup_flatMap]
  constructor
  · intro i _
    rw [List.map_map]
    have : (Prod.snd ∘ fun b : ℝ => (i, b)) = id := rfl
    rw [this, List.map_id]
    exact h.filter _
  · refine List.pairwise_lt_range.imp ?_
    intro a b hab x hx hy
    simp only [List.map_map, List.mem_map, List.mem_filter, Function.comp_apply, beq_iff_eq] at hx hy
    obtain ⟨x', ⟨-, h1⟩, rfl⟩ := hx
    obtain ⟨y', ⟨-, h2⟩, h3⟩ := hy
    subst h3
    omega

open Classical in
theorem extra_le {row : List ℝ} {bands : Fin n → ℝ} {base : ℝ} {G rem : List (List Bool)} {new : List (ℝ × List Bool)}
    (hinv : Inv base G new rem bands) (hG : ∀ g ∈ G, g.length = n) (hbase : base ∉ row)
    (hnd : (new.map Prod.fst).Nodup) (hsub : ∀ p ∈ new, p.1 ∈ row) :
    (row.dedup.map fun x => max 0 ((Spec.states bands x : ℤ) - row.count x)).sum = TbmInit.extra row new := by
  have e1 : TbmInit.extra row new = ((new.map Prod.fst).map fun x => max 0 ((Spec.states bands x : ℤ) - row.count x)).sum := by
    unfold TbmInit.extra
    rw [List.map_map]
    congr 1
    refine List.map_congr_left fun p hp => ?_
    simp only [Function.comp_apply, Spec.states]
    rw [hinv.card hG hp]
  rw [e1]
  have hfin : ∀ l : List ℝ, l.Nodup → (l.map fun x => max 0 ((Spec.states bands x : ℤ) - row.count x)).sum =
      ∑ x ∈ l.toFinset, max 0 ((Spec.states bands x : ℤ) - row.count x) := fun l hl => by
    rw [List.sum_toFinset _ hl]
  rw [hfin _ (List.nodup_dedup _), hfin _ hnd]
  symm
  refine Finset.sum_subset (fun x hx => ?_) fun x hx hx' => ?_
  · rw [List.mem_toFinset, List.mem_map] at hx
    obtain ⟨p, hp, rfl⟩ := hx
    rw [List.mem_toFinset, List.mem_dedup]
    exact hsub p hp
  · rw [List.mem_toFinset, List.mem_dedup] at hx
    rw [List.mem_toFinset] at hx'
    have h0 : Spec.states bands x = 0 := by
      unfold Spec.states
      rw [Finset.card_eq_zero, Finset.filter_eq_empty_iff]
      rintro j - rfl
      rcases hinv.value j with h | h
      · exact hbase (h ▸ hx)
      · exact hx' h
    rw [h0]
    simp

open Classical in
theorem modelBands_start {ρ : UR.Rep ℝ ℂ d n} {setOrder : List ℝ → List ℝ} (hset : ∀ l, (setOrder l).Perm l.dedup)
    {shuffle : ℕ → List (List Bool) → List (List Bool)} (hsh : ∀ i l, (shuffle i l).Perm l) {row : List ℝ} {ordered : Bool} {bands : Fin n → ℝ}
    (h : modelBands ρ setOrder shuffle row ordered = .ok bands) : Spec.Start ρ row ordered bands := by
  unfold modelBands at h
  cases hsub : ρ.subspaces with
  | error e => rw [hsub] at h; cases h
  | ok r =>
    obtain ⟨groups, counts⟩ := r
    rw [hsub] at h
    simp only at h
    obtain ⟨hap, rfl, hnd, hrow⟩ := groups_apart hsub
    have hlen : ¬ groups.length < (setOrder row).length := fun hl => by rw [if_pos hl] at h; cases h
    rw [if_neg hlen] at h
    have hperm := hset row
    have hund : (setOrder row).Nodup := hperm.nodup_iff.2 (List.nodup_dedup _)
    have humem : ∀ x, x ∈ setOrder row ↔ x ∈ row := fun x => by rw [hperm.mem_iff, List.mem_dedup]
    cases hmin : row.min? with
    | none => rw [hmin] at h; cases h
    | some m =>
      rw [hmin] at h
      simp only at h
      obtain ⟨hm1, hm2⟩ := List.min?_eq_some_iff.1 hmin
      have hbase : ∀ x ∈ row, x ≠ m - 1 / 100 := fun x hx h1 => by have := hm2 x hx; linarith
      have hG : ∀ g ∈ groups, g.length = n := fun g hg => (hrow g hg).1
      have hrest : ∀ {new : List (ℝ × List Bool)} {rem : List (List Bool)}, Inv (m - 1 / 100) groups new rem bands → (∀ p ∈ new, p.1 ∈ row) →
          ∀ j, bands j ∉ row → ∃ m ∈ row, (∀ y ∈ row, m ≤ y) ∧ bands j = m - 1 / 100 := by
        intro new rem hinv hnew j hj
        rcases hinv.value j with h1 | h1
        · exact ⟨m, hm1, hm2, h1⟩
        · obtain ⟨p, hp, e⟩ := List.mem_map.1 h1
          exact absurd (e ▸ hnew p hp) hj
      have hcar : ∀ {new : List (ℝ × List Bool)} {rem : List (List Bool)}, Inv (m - 1 / 100) groups new rem bands →
          ∀ x ∈ new.map Prod.fst, ∃ i, ∀ j, bands j = x ↔ UR.Coupled ρ i j := by
        intro new rem hinv x hx
        obtain ⟨p, hp, rfl⟩ := List.mem_map.1 hx
        obtain ⟨h1, -, h3⟩ := hinv.carried p hp
        obtain ⟨-, -, i, hi⟩ := hrow _ h1
        exact ⟨i, fun j => by rw [h3, hi]⟩
      cases ordered with
      | false =>
        rw [if_neg (by simp)] at h
        unfold assignFree at h
        cases hf : (items d row (setOrder row)).foldlM place
            (⟨fun _ => m - 1 / 100, sized shuffle d groups (groups.map fun g => g.count true), (n : ℤ) - row.length⟩ : St n) with
        | error e => rw [hf] at h; cases h
        | ok st =>
          rw [hf] at h
          have hb : st.bands = bands := Except.ok.inj h
          have hs0 := sized_sized shuffle hsh groups d 0
          have hn0 := sized_nodup shuffle hsh groups hnd d 0
          rw [← List.range_eq_range'] at hs0 hn0
          obtain ⟨new, e1, e2, e3, e4, e5, e6⟩ := free_fold hap row (items d row (setOrder row)) [] _ st
            (fun p hp => (mem_items.1 hp).2.1) (items_nodup _ _ _ hund)
            (fun p hp => ⟨by simp, hbase _ ((humem _).1 (mem_items.1 hp).1)⟩) hs0
            (Inv.start (sized_mem shuffle hsh d groups _) hn0) hf
          rw [List.nil_append, hb] at e2
          have hmem : ∀ x, x ∈ new.map Prod.fst ↔ x ∈ row ∧ row.count x ≤ d := by
            intro x
            rw [e1, List.mem_map]
            constructor
            · rintro ⟨p, hp, rfl⟩
              obtain ⟨h1, h2, h3⟩ := mem_items.1 hp
              exact ⟨(humem _).1 h1, by omega⟩
            · rintro ⟨h1, h2⟩
              have h3 := List.count_pos_iff.2 h1
              exact ⟨(row.count x - 1, x), mem_items.2 ⟨(humem _).2 h1, by simp only; omega, by simp only; omega⟩, rfl⟩
          have hnew : ∀ p ∈ new, p.1 ∈ row := fun p hp => ((hmem p.1).1 (List.mem_map_of_mem hp)).1
          refine ⟨?_, ?_, hrest e2 hnew, ?_, ?_, by simp, by simp⟩
          · rintro x hx (h1 | h1)
            · cases h1
            · exact hcar e2 x ((hmem x).2 ⟨hx, h1⟩)
          · rintro - x hx h1 j rfl
            rcases e2.value j with h2 | h2
            · exact hbase _ hx h2
            · have := ((hmem _).1 h2).2
              omega
          · intro hle
            rw [extra_le e2 hG (fun h => hbase _ h rfl) (by rw [e1]; exact items_nodup _ _ _ hund) hnew]
            simp only at e5 e6
            have := e6 (by omega)
            omega
          · rintro - x hx y hy hxy hyd
            obtain ⟨p, hp, hpx⟩ := List.mem_map.1 ((hmem x).2 ⟨hx, by omega⟩)
            obtain ⟨q, hq, hqy⟩ := List.mem_map.1 ((hmem y).2 ⟨hy, hyd⟩)
            have key : ∀ (l : List (ℕ × ℝ)) (new : List (ℝ × List Bool)), new.map Prod.fst = l.map Prod.snd → l.Pairwise (fun p q => p.1 ≤ q.1) →
                (∀ p ∈ l, row.count p.2 = p.1 + 1) → new.Pairwise (fun p q => row.count p.1 ≤ row.count q.1) := by
              intro l new h1 h2 h3
              have h4 : (l.map Prod.snd).Pairwise fun a b => row.count a ≤ row.count b := by
                rw [List.pairwise_map]
                refine (List.pairwise_iff_forall_sublist.2 fun {a b} hab => ?_)
                have h5 := (List.pairwise_iff_forall_sublist.1 h2) hab
                rw [h3 a (hab.subset (by simp)), h3 b (hab.subset (by simp))]
                omega
              rw [← h1, List.pairwise_map] at h4
              exact h4
            have hpw := key _ _ e1 (items_sorted _ _ _) (fun p hp => (mem_items.1 hp).2.1)
            obtain ⟨i, hi, hpi⟩ := List.getElem_of_mem hp
            obtain ⟨k, hk, hqk⟩ := List.getElem_of_mem hq
            have hik : i < k := by
              by_contra hki
              rcases Nat.lt_or_eq_of_le (not_lt.1 hki) with h1 | h1
              · have := List.pairwise_iff_getElem.1 hpw k i hk hi h1
                rw [hpi, hqk, hpx, hqy] at this
                omega
              · subst h1
                rw [hpi] at hqk
                rw [← hqk, hpx] at hqy
                rw [hqy] at hxy
                omega
            have h5 := List.pairwise_iff_getElem.1 e4 i k hi hk hik
            rw [hpi, hqk, ← e2.card hG hp, ← e2.card hG hq, hpx, hqy] at h5
            exact h5
      | true =>
        rw [if_pos rfl] at h
        unfold assignOrdered at h
        simp only at h
        set gs := groups.insertionSort fun a b => a.idxOf true ≤ b.idxOf true with hgs
        set un := (setOrder row).insertionSort (· ≤ ·) with hun
        have hgp : gs.Perm groups := List.perm_insertionSort _ _
        have hup : un.Perm (setOrder row) := List.perm_insertionSort _ _
        have hgl := hgp.length_eq
        have hul := hup.length_eq
        cases hf : (un.zip gs).zipIdx.foldlM (placeOrdered row ((min un.length gs.length : ℕ) - 1)) ((fun _ => m - 1 / 100 : Fin n → ℝ), (n : ℤ) - row.length) with
        | error e => rw [hf] at h; cases h
        | ok st =>
          rw [hf] at h
          have hb : st.1 = bands := Except.ok.inj h
          have hfst : (un.zip gs).map Prod.fst = un := List.map_fst_zip (by omega)
          have hsnd : (un.zip gs).map Prod.snd = gs.take un.length := by
            have h1 : un.zip gs = un.zip (gs.take un.length) := by
              rw [@List.zip_eq_zip_take_min _ _ un gs, min_eq_left (by omega), List.take_length]
            rw [h1, List.map_snd_zip (by rw [List.length_take]; omega)]
          have hndu : un.Nodup := hup.nodup_iff.2 hund
          have hmu : ∀ x, x ∈ un ↔ x ∈ row := fun x => by rw [hup.mem_iff, humem]
          obtain ⟨e2, e5, e6, e7⟩ := ordered_fold hap row _ (un.zip gs) 0 [] (gs.drop un.length) _ st (by rw [hfst]; exact hndu)
            (fun p hp => ⟨by simp, hbase _ ((hmu _).1 (by rw [← hfst]; exact List.mem_map_of_mem hp))⟩)
            (Inv.start (fun g hg => by rw [hsnd, List.take_append_drop] at hg; exact hgp.mem_iff.1 hg)
              (by rw [hsnd, List.take_append_drop]; exact hgp.nodup_iff.2 hnd)) hf
          rw [List.nil_append, hb] at e2
          have hnew : ∀ p ∈ un.zip gs, p.1 ∈ row := fun p hp => (hmu _).1 (by rw [← hfst]; exact List.mem_map_of_mem hp)
          have hpair : ∀ x ∈ row, ∃ i, ∃ (h1 : i < un.length) (h2 : i < gs.length), un[i] = x ∧ (x, gs[i]) ∈ un.zip gs ∧ ((x, gs[i]), i) ∈ (un.zip gs).zipIdx 0 := by
            intro x hx
            obtain ⟨i, hi, rfl⟩ := List.getElem_of_mem ((hmu x).2 hx)
            have h2 : i < gs.length := by omega
            have h3 : i < (un.zip gs).length := by rw [List.length_zip]; omega
            have h4 : (un.zip gs)[i] = (un[i], gs[i]) := List.getElem_zip
            refine ⟨i, hi, h2, rfl, h4 ▸ List.getElem_mem h3, ?_⟩
            rw [List.mk_mem_zipIdx_iff_getElem?, List.getElem?_eq_getElem h3, h4]
          have hsorted : un.Pairwise (· ≤ ·) := List.pairwise_insertionSort _ _
          have hlt : ∀ i k (hi : i < un.length) (hk : k < un.length), un[i] < un[k] → i < k := by
            intro i k hi hk h1
            by_contra h2
            rcases Nat.lt_or_eq_of_le (not_lt.1 h2) with h3 | h3
            · exact absurd (List.pairwise_iff_getElem.1 hsorted k i hk hi h3) (not_le.2 h1)
            · subst h3; exact lt_irrefl _ h1
          refine ⟨?_, by simp, hrest e2 hnew, ?_, by simp, ?_, ?_⟩
          · intro x hx _
            exact hcar e2 x (by rw [hfst]; exact (hmu x).2 hx)
          · intro hle
            rw [extra_le e2 hG (fun h => hbase _ h rfl) (by rw [hfst]; exact hndu) hnew]
            simp only at e5 e6
            have := e6 (by omega)
            omega
          · intro _ x hx j hj hjr
            obtain ⟨a, ha, ha', hax, hap', -⟩ := hpair x hx
            obtain ⟨b, hb1, hb2, hby, hbp, -⟩ := hpair _ hjr
            have hab : a < b := hlt a b ha hb1 (by rw [hax, hby]; exact hj)
            have hsg : gs.Pairwise fun a b => a.idxOf true ≤ b.idxOf true := List.pairwise_insertionSort _ _
            have h1 := List.pairwise_iff_getElem.1 hsg a b ha' hb2 hab
            have hga := hrow gs[a] (hgp.mem_iff.1 (List.getElem_mem ha'))
            have h2 : gs[a].idxOf true < gs[a].length := List.idxOf_lt_length_iff.2 (List.count_pos_iff.1 (Nat.pos_of_ne_zero hga.2.1))
            have h3 : On gs[b] j := ((e2.carried _ hbp).2.2 j).1 rfl
            have h4 : gs[b].idxOf true ≤ j.val := by
              by_contra h5
              have h6 := List.not_of_lt_findIdx (p := (· == true)) (xs := gs[b]) (not_le.1 h5)
              have h7 : j.val < gs[b].length := by rw [(hrow gs[b] (hgp.mem_iff.1 (List.getElem_mem hb2))).1]; exact j.2
              unfold On at h3
              rw [List.getD, List.getElem?_eq_getElem h7, Option.getD_some] at h3
              rw [h3] at h6
              simp at h6
            let i : Fin n := ⟨gs[a].idxOf true, by rw [← hga.1]; exact h2⟩
            have h5 : bands i = x := by
              rw [(e2.carried _ hap').2.2 i]
              change gs[a].getD (gs[a].idxOf true) false = true
              rw [List.getD, List.getElem?_eq_getElem h2, Option.getD_some, List.getElem_idxOf]
            refine ⟨i, lt_of_le_of_ne (Fin.le_def.2 (h1.trans h4)) ?_, h5⟩
            intro h6
            rw [h6] at h5
            exact absurd h5 hj.ne'
          · rintro - x hx ⟨y, hy, hyx⟩ ⟨z, hz, hxz⟩
            obtain ⟨a, ha, ha', hax, hap', haz⟩ := hpair x hx
            obtain ⟨b, hb1, hb2, hby, -⟩ := hpair y hy
            obtain ⟨c, hc1, hc2, hcz, -⟩ := hpair z hz
            have h1 := hlt b a hb1 ha (by rw [hax, hby]; exact hyx)
            have h2 := hlt a c ha hc1 (by rw [hax, hcz]; exact hxz)
            have h3 := e7 _ haz (by simp only; omega) (by simp only; rw [min_eq_left (by omega)]; omega)
            simp only at h3
            rw [h3]
            exact e2.card hG hap'

theorem zeroRow_inv {A : Type} {ks : List (RVec e)} {ref : List A} {row : A} (h : InitRef.zeroRow ks ref = .ok row) :
    ∃ i, InitRef.Spec.FirstZero ks i ∧ ref[i]? = some row := by
  by_cases h0 : (0 : RVec e) ∈ ks
  · have hz := InitRef.argmin_zero ks h0
    rw [InitRef.zeroRow_ok hz] at h
    refine ⟨_, hz, ?_⟩
    cases hr : ref[InitRef.argmin (ks.map vnorm)]? with
    | none => rw [hr] at h; cases h
    | some a => rw [hr] at h; cases h; rfl
  · by_cases hk : ks = []
    · subst hk; cases h
    · rw [InitRef.zeroRow_missing hk h0] at h; cases h

/-- The object returned. -/
structure Built (ρ : UR.Rep ℝ ℂ d n) (N : List (RVec d)) (rnd : ℕ → Matrix (Fin n) (Fin n) ℝ × Matrix (Fin n) (Fin n) ℝ) (bands : Fin n → ℝ)
    (t : TBM d n) : Prop where
  len : ρ.U.length = 1
  inv : ρ.sym.inversion = false
  params : t.params = startParams (N.length * 2 - 1) bands rnd
  made : mkTBM ρ N (some t.params) = .ok t

theorem init_inv {ρ : UR.Rep ℝ ℂ d n} {setOrder : List ℝ → List ℝ} {shuffle : ℕ → List (List Bool) → List (List Bool)}
    {rnd : ℕ → Matrix (Fin n) (Fin n) ℝ × Matrix (Fin n) (Fin n) ℝ} {N : List (RVec d)} {ks : List (RVec e)} {ref : List (List ℝ)} {ordered : Bool}
    {t : TBM d n} (h : initFromRef ρ setOrder shuffle rnd N ks ref ordered = .ok t) :
    e = d ∧ (∃ rest, N = 0 :: rest) ∧ n ≠ 0 ∧ ∃ i row bands, InitRef.Spec.FirstZero ks i ∧ ref[i]? = some row ∧
      modelBands ρ setOrder shuffle (row.map round5) ordered = .ok bands ∧ Built ρ N rnd bands t := by
  cases ks with
  | nil => cases h
  | cons k0 ks =>
  cases N with
  | nil => cases h
  | cons r0 rest =>
    unfold initFromRef at h
    simp only at h
    by_cases h1 : e ≠ d
    · rw [if_pos h1] at h; cases h
    rw [if_neg h1] at h
    by_cases h2 : vnorm r0 ≠ 0
    · rw [if_pos h2] at h; cases h
    rw [if_neg h2] at h
    rw [not_not] at h1 h2
    have hr0 : r0 = 0 := vnorm_eq_zero.1 h2
    cases hz : InitRef.zeroRow (k0 :: ks) ref with
    | error e => rw [hz] at h; cases h
    | ok row =>
      rw [hz] at h
      simp only [bind, Except.bind] at h
      obtain ⟨i, hi, hrow⟩ := zeroRow_inv hz
      cases hb : modelBands ρ setOrder shuffle (row.map round5) ordered with
      | error e => rw [hb] at h; cases h
      | ok bands =>
        rw [hb] at h
        simp only at h
        by_cases hn : n = 0
        · rw [if_pos hn] at h; cases h
        rw [if_neg hn] at h
        cases hm : mkTBM ρ (r0 :: rest) (some (startParams (paramCount ρ.sym.inversion (r0 :: rest).length) bands rnd)) with
        | error e => rw [hm] at h; cases h
        | ok t1 =>
          rw [hm] at h
          simp only at h
          obtain ⟨-, c2, c3, -, c5, -, c7⟩ := (C105_constructor _ _ _ _).1 hm
          have hnorm : t1.normalize = (t1, .ok ()) := by
            unfold TBM.normalize
            rw [c5]
          rw [hnorm] at h
          have ht : t1 = t := Except.ok.inj h
          subst ht
          have hp : t1.params = startParams (paramCount ρ.sym.inversion (r0 :: rest).length) bands rnd := by
            rcases c7 with c7 | ⟨c7, -⟩
            · exact (Option.some.inj c7).symm
            · cases c7
          refine ⟨h1, ⟨rest, by rw [hr0]⟩, hn, i, row, bands, hi, hrow, hb, c2, c3, ?_, by rw [hp]; exact hm⟩
          rw [hp, c3]; rfl

theorem round5_near (x : ℝ) : |round5 x - x| ≤ 1 / 200000 := by
  have key : ∀ y : ℝ, |(Naive.pyRound y : ℝ) - y| ≤ 1 / 2 := by
    intro y
    classical
    unfold Naive.pyRound
    have h1 := Int.floor_le y
    have h2 := Int.lt_floor_add_one y
    split_ifs with a b c <;> push_cast <;> rw [abs_le] <;> constructor <;> linarith
  have h := key (x * 100000)
  have e : round5 x - x = ((Naive.pyRound (x * 100000) : ℝ) - x * 100000) / 100000 := by
    unfold round5; field_simp
  rw [e, abs_div, abs_of_pos (by norm_num : (0 : ℝ) < 100000), div_le_iff₀ (by norm_num)]
  linarith

theorem start_herm (c : ℕ) (bands : Fin n → ℝ) (rnd : ℕ → Matrix (Fin n) (Fin n) ℝ × Matrix (Fin n) (Fin n) ℝ) :
    ∀ X ∈ startParams c bands rnd, X.IsHermitian := by
  intro X hX
  unfold startParams InitRef.asymHr at hX
  rcases List.mem_cons.1 hX with rfl | hX
  · rw [IsHermitian, diagonal_conjTranspose]
    congr 1
    funext i
    simp
  · obtain ⟨i, -, rfl⟩ := List.mem_map.1 hX
    have := InitRef.random_herm (rnd i).1 (rnd i).2
    rw [IsHermitian, conjTranspose_smul, this.eq]
    simp

theorem start_bound (hn : n ≠ 0) (c : ℕ) (bands : Fin n → ℝ) (rnd : ℕ → Matrix (Fin n) (Fin n) ℝ × Matrix (Fin n) (Fin n) ℝ)
    (hrnd : ∀ i, InitRef.Spec.Random (rnd i).1 ∧ InitRef.Spec.Random (rnd i).2) {w : ℝ} (hw : ∀ i j, |bands i - bands j| ≤ w) :
    ∀ X ∈ (startParams c bands rnd).drop 1, ∀ i j, ‖X i j‖ ≤ w * (3 / 1000) := by
  have : Nonempty (Fin n) := ⟨⟨0, Nat.pos_of_ne_zero hn⟩⟩
  have hfin : (Set.range bands).Finite := Set.finite_range bands
  have hne : (Set.range bands).Nonempty := Set.range_nonempty bands
  obtain ⟨a, ha⟩ := (hfin.isCompact.isGreatest_sSup hne).1
  obtain ⟨b, hb⟩ := (hfin.isCompact.isLeast_sInf hne).1
  have hle : ((⨆ i, bands i) - ⨅ i, bands i) ≤ w := by
    have : (⨆ i, bands i) - (⨅ i, bands i) = bands a - bands b := by rw [ha, hb]; rfl
    rw [this]
    exact (le_abs_self _).trans (hw a b)
  have h0 : 0 ≤ ((⨆ i, bands i) - ⨅ i, bands i) := by
    have : (⨆ i, bands i) - (⨅ i, bands i) = bands a - bands b := by rw [ha, hb]; rfl
    rw [this, hb]
    linarith [(hfin.isCompact.isLeast_sInf hne).2 ⟨a, rfl⟩]
  intro X hX i j
  unfold startParams InitRef.asymHr at hX
  simp only [List.drop_succ_cons, List.drop_zero] at hX
  obtain ⟨k, -, rfl⟩ := List.mem_map.1 hX
  have h1 := InitRef.random_bound (hrnd k).1 (hrnd k).2 i j
  rw [Matrix.smul_apply, smul_eq_mul, norm_mul, Complex.norm_real, Real.norm_eq_abs, abs_of_nonneg (by positivity)]
  nlinarith [norm_nonneg (InitRef.randomHermitian (rnd k).1 (rnd k).2 i j)]

/-! ### the trivial group -/

theorem coupled_one {ρ : UR.Rep ℝ ℂ d n} (hU : ρ.U = [1]) (i j : Fin n) : UR.Coupled ρ i j ↔ i = j := by
  unfold UR.Coupled
  rw [hU]
  simp [Matrix.one_apply]

open Classical in
theorem subspaces_one {ρ : UR.Rep ℝ ℂ d n} (hU : ρ.U = [1]) :
    ∃ groups, ρ.subspaces = .ok (groups, groups.map fun g => g.count true) ∧ groups.length = n ∧ ∀ g ∈ groups, g.count true = 1 := by
  have he : Equivalence (UR.Coupled ρ) := by
    refine ⟨fun i => (coupled_one hU i i).2 rfl, fun {i j} h => ?_, fun {i j k} h1 h2 => ?_⟩
    · rw [coupled_one hU] at h ⊢; exact h.symm
    · rw [coupled_one hU] at h1 h2 ⊢; exact h1.trans h2
  obtain ⟨⟨groups, counts⟩, hr⟩ := ((UR.C91_returns ρ (by rw [hU]; exact List.mem_singleton.2 rfl)).1).2 he
  obtain ⟨-, h2, -, h4⟩ := groups_apart hr
  have h5 : ∀ g ∈ groups, g.count true = 1 := by
    intro g hg
    obtain ⟨hl, -, i, hi⟩ := h4 g hg
    rw [← card_on hl, Finset.card_eq_one]
    refine ⟨i, ?_⟩
    ext j
    simp only [Finset.mem_filter, Finset.mem_univ, true_and, Finset.mem_singleton]
    rw [hi, coupled_one hU]
    exact eq_comm
  refine ⟨groups, by rw [hr, h2], ?_, h5⟩
  have h6 := (UR.C91_result ρ groups counts hr).2.2.2.2
  rw [h2] at h6
  have h7 : (groups.map fun g => g.count true) = List.replicate groups.length 1 := by
    rw [List.eq_replicate_iff]
    refine ⟨by simp, fun b hb => ?_⟩
    obtain ⟨g, hg, rfl⟩ := List.mem_map.1 hb
    exact h5 g hg
  rw [h7] at h6
  simpa using h6

theorem single_fold (E : List (List (List Bool))) (left : ℤ) : ∀ (l : List (ℕ × ℝ)) (b : Fin n → ℝ) (R : List (List Bool)), l.length ≤ R.length →
    ((∀ p ∈ l, -(p.1 : ℤ) ≤ left) → ∃ st, l.foldlM place (⟨b, R :: E, left⟩ : St n) = .ok st) ∧
    ((∃ p ∈ l, left < -(p.1 : ℤ)) → l.foldlM place (⟨b, R :: E, left⟩ : St n) = .error .valueError)
  | [], b, R, _ => ⟨fun _ => ⟨_, rfl⟩, fun ⟨p, hp, _⟩ => absurd hp List.not_mem_nil⟩
  | p :: l, b, [], h => by simp at h
  | p :: l, b, g :: R, h => by
    have ih := single_fold E left l (setMask b g p.2) R (by simpa using h)
    rw [List.foldlM_cons]
    have hok : -(p.1 : ℤ) ≤ left → place (⟨b, (g :: R) :: E, left⟩ : St n) p = .ok ⟨setMask b g p.2, R :: E, left⟩ := by
      intro hp
      unfold place
      simp only
      rw [seek.eq_def]
      simp only
      rw [if_neg (by push_cast; omega)]
      simp only [Except.ok.injEq, St.mk.injEq, true_and]
      rw [max_eq_left (by push_cast; omega)]
      ring
    have herr : left < -(p.1 : ℤ) → place (⟨b, (g :: R) :: E, left⟩ : St n) p = .error .valueError := by
      intro hp
      unfold place
      simp only
      rw [seek.eq_def]
      simp only
      rw [if_pos (by push_cast; omega)]
    constructor
    · intro hall
      rw [hok (hall p List.mem_cons_self)]
      exact ih.1 fun q hq => hall q (List.mem_cons_of_mem _ hq)
    · rintro ⟨q, hq, hlt⟩
      by_cases hp : left < -(p.1 : ℤ)
      · rw [herr hp]; rfl
      · rw [hok (not_lt.1 hp)]
        rcases List.mem_cons.1 hq with rfl | hq
        · exact absurd hlt hp
        · exact ih.2 ⟨q, hq, hlt⟩

open Classical in
theorem single_ordered (row : List ℝ) (last left : ℤ) : ∀ (l : List ((ℝ × List Bool) × ℕ)) (b : Fin n → ℝ),
    (∀ p ∈ l, p.1.2.count true = 1 ∧ p.1.1 ∈ row) →
    ((∀ p ∈ l, if p.2 = 0 ∨ (p.2 : ℤ) = last then 1 - (row.count p.1.1 : ℤ) ≤ left else row.count p.1.1 = 1) →
      ∃ st, l.foldlM (placeOrdered row last) (b, left) = .ok st) ∧
    ((∃ p ∈ l, ¬ if p.2 = 0 ∨ (p.2 : ℤ) = last then 1 - (row.count p.1.1 : ℤ) ≤ left else row.count p.1.1 = 1) →
      l.foldlM (placeOrdered row last) (b, left) = .error .valueError)
  | [], b, _ => ⟨fun _ => ⟨_, rfl⟩, fun ⟨p, hp, _⟩ => absurd hp List.not_mem_nil⟩
  | p :: l, b, h => by
    have ih := single_ordered row last left l (setMask b p.1.2 p.1.1) fun q hq => h q (List.mem_cons_of_mem _ hq)
    obtain ⟨h1, h2⟩ := h p List.mem_cons_self
    have h3 := List.count_pos_iff.2 h2
    rw [List.foldlM_cons]
    have hok : (if p.2 = 0 ∨ (p.2 : ℤ) = last then 1 - (row.count p.1.1 : ℤ) ≤ left else row.count p.1.1 = 1) →
        placeOrdered row last (b, left) p = .ok (setMask b p.1.2 p.1.1, left) := by
      intro hp
      unfold placeOrdered
      simp only
      rw [h1]
      split_ifs at hp ⊢ with a b c c
      · push_cast at b; omega
      · rw [max_eq_left (by push_cast; omega), sub_zero]
      · exact absurd hp c
      · rfl
    have herr : ¬ (if p.2 = 0 ∨ (p.2 : ℤ) = last then 1 - (row.count p.1.1 : ℤ) ≤ left else row.count p.1.1 = 1) →
        placeOrdered row last (b, left) p = .error .valueError := by
      intro hp
      unfold placeOrdered
      simp only
      rw [h1]
      split_ifs at hp ⊢ with a b c
      · rfl
      · push_cast at b; omega
      · rfl
      · rfl
    constructor
    · intro hall
      rw [hok (hall p List.mem_cons_self)]
      exact ih.1 fun q hq => hall q (List.mem_cons_of_mem _ hq)
    · rintro ⟨q, hq, hlt⟩
      by_cases hp : (if p.2 = 0 ∨ (p.2 : ℤ) = last then 1 - (row.count p.1.1 : ℤ) ≤ left else row.count p.1.1 = 1)
      · rw [hok hp]
        rcases List.mem_cons.1 hq with rfl | hq
        · exact absurd hp hlt
        · exact ih.2 ⟨q, hq, hlt⟩
      · rw [herr hp]; rfl

open Classical in
/-- The condition under which the energies fit, for the trivial group. -/
def Spec.Fits (d n : ℕ) (row : List ℝ) (ordered : Bool) : Prop :=
  match ordered with
  | false => ∀ x ∈ row, row.count x ≤ d → row.length + 1 ≤ n + row.count x
  | true => ∀ x ∈ row, ((∀ y ∈ row, x ≤ y) ∨ (∀ y ∈ row, y ≤ x) → row.length + 1 ≤ n + row.count x) ∧
      ((∃ y ∈ row, y < x) → (∃ y ∈ row, x < y) → row.count x = 1)

open Classical in
theorem modelBands_one {ρ : UR.Rep ℝ ℂ d n} (hU : ρ.U = [1]) {setOrder : List ℝ → List ℝ} (hset : ∀ l, (setOrder l).Perm l.dedup)
    {shuffle : ℕ → List (List Bool) → List (List Bool)} (hsh : ∀ i l, (shuffle i l).Perm l) (row : List ℝ) (ordered : Bool) :
    (n < row.dedup.length → modelBands ρ setOrder shuffle row ordered = .error .assertionError) ∧
    (row = [] → modelBands ρ setOrder shuffle row ordered = .error .valueError) ∧
    (row ≠ [] → row.dedup.length ≤ n → Spec.Fits d n row ordered → ∃ b, modelBands ρ setOrder shuffle row ordered = .ok b) ∧
    (row.dedup.length ≤ n → ¬ Spec.Fits d n row ordered → modelBands ρ setOrder shuffle row ordered = .error .valueError) := by
  obtain ⟨groups, h1, h2, h3⟩ := subspaces_one hU
  have hperm := hset row
  have hlen := hperm.length_eq
  have hund : (setOrder row).Nodup := hperm.nodup_iff.2 (List.nodup_dedup _)
  have humem : ∀ x, x ∈ setOrder row ↔ x ∈ row := fun x => by rw [hperm.mem_iff, List.mem_dedup]
  have hmin : ∀ {m}, row.min? = some m → row.dedup.length ≤ n →
      modelBands ρ setOrder shuffle row ordered = if ordered then assignOrdered row (setOrder row) groups (fun _ => m - 1 / 100) ((n : ℤ) - row.length)
        else assignFree shuffle d row (setOrder row) groups (groups.map fun g => g.count true) (fun _ => m - 1 / 100) ((n : ℤ) - row.length) := by
    intro m hm hle
    unfold modelBands
    rw [h1]
    simp only
    rw [if_neg (by rw [h2, hlen]; omega), hm]
  have hrow : row ≠ [] → ∃ m, row.min? = some m := fun hne => by
    cases hm : row.min? with
    | none => exact absurd (List.min?_eq_none_iff.1 hm) hne
    | some m => exact ⟨m, rfl⟩
  have main : row ≠ [] → row.dedup.length ≤ n →
      (Spec.Fits d n row ordered → ∃ b, modelBands ρ setOrder shuffle row ordered = .ok b) ∧
      (¬ Spec.Fits d n row ordered → modelBands ρ setOrder shuffle row ordered = .error .valueError) := by
    intro hne hle
    obtain ⟨m, hm⟩ := hrow hne
    rw [hmin hm hle]
    cases ordered with
    | false =>
      rw [if_neg (by simp)]
      unfold assignFree
      cases d with
      | zero =>
        refine ⟨fun _ => ⟨_, rfl⟩, fun h => absurd (fun x hx hc => ?_) h⟩
        have := List.count_pos_iff.2 hx
        omega
      | succ d =>
        have hsz : ∃ R E, sized shuffle (d + 1) groups (groups.map fun g => g.count true) = R :: E ∧ R.length = n := by
          refine ⟨_, _, by rw [sized, List.range_succ_eq_map, List.map_cons], ?_⟩
          rw [(hsh _ _).length_eq, zip_counts, List.filter_eq_self.2, List.length_map, List.length_map, h2]
          intro p hp
          obtain ⟨g, hg, rfl⟩ := List.mem_map.1 hp
          simp [h3 g hg]
        obtain ⟨R, E, hRE, hR⟩ := hsz
        rw [hRE]
        have hil : (items (d + 1) row (setOrder row)).length ≤ R.length := by
          rw [hR]
          refine le_trans ?_ (hlen.le.trans hle)
          rw [← List.length_map (f := Prod.snd)]
          exact (List.Nodup.subperm (items_nodup _ _ _ hund) fun x hx => by
            obtain ⟨p, hp, rfl⟩ := List.mem_map.1 hx
            exact (mem_items.1 hp).1).length_le
        have hsf := single_fold (n := n) E ((n : ℤ) - row.length) (items (d + 1) row (setOrder row)) (fun _ => m - 1 / 100) R hil
        constructor
        · intro hfit
          obtain ⟨st, hst⟩ := hsf.1 fun p hp => by
            obtain ⟨a1, a2, a3⟩ := mem_items.1 hp
            have := hfit p.2 ((humem _).1 a1) (by omega)
            omega
          rw [hst]
          exact ⟨_, rfl⟩
        · intro hfit
          simp only [Spec.Fits, not_forall] at hfit
          obtain ⟨x, hx, hc, hlt⟩ := hfit
          have hpos := List.count_pos_iff.2 hx
          rw [hsf.2 ⟨(row.count x - 1, x), mem_items.2 ⟨(humem _).2 hx, by simp only; omega, by simp only; omega⟩, by simp only; omega⟩]
          rfl
    | true =>
      rw [if_pos rfl]
      unfold assignOrdered
      simp only
      set gs := groups.insertionSort fun a b => a.idxOf true ≤ b.idxOf true with hgs
      set un := (setOrder row).insertionSort (· ≤ ·) with hun
      have hgp : gs.Perm groups := List.perm_insertionSort _ _
      have hup : un.Perm (setOrder row) := List.perm_insertionSort _ _
      have hgl := hgp.length_eq
      have hul := hup.length_eq
      have hmu : ∀ x, x ∈ un ↔ x ∈ row := fun x => by rw [hup.mem_iff, humem]
      have hsorted : un.Pairwise (· ≤ ·) := List.pairwise_insertionSort _ _
      have hndu : un.Nodup := hup.nodup_iff.2 hund
      have hstrict : ∀ i k (hi : i < un.length) (hk : k < un.length), un[i] < un[k] ↔ i < k := by
        intro i k hi hk
        constructor
        · intro h1
          by_contra h2
          rcases Nat.lt_or_eq_of_le (not_lt.1 h2) with h3 | h3
          · exact absurd (List.pairwise_iff_getElem.1 hsorted k i hk hi h3) (not_le.2 h1)
          · subst h3; exact lt_irrefl _ h1
        · intro h1
          exact lt_of_le_of_ne (List.pairwise_iff_getElem.1 hsorted i k hi hk h1) fun h2 =>
            absurd ((List.Nodup.getElem_inj_iff hndu).1 h2) h1.ne
      have hmin2 : min un.length gs.length = un.length := min_eq_left (by omega)
      rw [hmin2]
      have hmem : ∀ p, p ∈ (un.zip gs).zipIdx ↔ ∃ (h1 : p.2 < un.length) (h2 : p.2 < gs.length), p.1 = (un[p.2], gs[p.2]) := by
        rintro ⟨q, i⟩
        rw [List.mk_mem_zipIdx_iff_getElem?]
        constructor
        · intro hq
          obtain ⟨hi, hq⟩ := List.getElem?_eq_some_iff.1 hq
          rw [List.getElem_zip] at hq
          rw [List.length_zip] at hi
          exact ⟨by simp only; omega, by simp only; omega, hq.symm⟩
        · rintro ⟨a1, a2, a3⟩
          simp only at a1 a2 a3
          rw [List.getElem?_eq_some_iff]
          exact ⟨by rw [List.length_zip]; omega, by rw [List.getElem_zip]; exact a3.symm⟩
      have hend : ∀ i (hi : i < un.length), ((∀ y ∈ row, un[i] ≤ y) ↔ i = 0) ∧ ((∀ y ∈ row, y ≤ un[i]) ↔ (i : ℤ) = (un.length : ℤ) - 1) := by
        intro i hi
        have hall : ∀ y ∈ row, ∃ k, ∃ (hk : k < un.length), un[k] = y := fun y hy => List.getElem_of_mem ((hmu y).2 hy)
        refine ⟨⟨fun h => ?_, ?_⟩, ⟨fun h => ?_, fun h y hy => ?_⟩⟩
        · by_contra h0
          exact absurd (h un[0] ((hmu _).1 (List.getElem_mem _))) (not_le.2 ((hstrict 0 i (by omega) hi).2 (by omega)))
        · rintro rfl y hy
          obtain ⟨k, hk, rfl⟩ := hall y hy
          exact not_lt.1 fun h => absurd ((hstrict k 0 hk hi).1 h) (by omega)
        · by_contra h0
          exact absurd (h un[un.length - 1] ((hmu _).1 (List.getElem_mem _))) (not_le.2 ((hstrict i (un.length - 1) hi (by omega)).2 (by omega)))
        · obtain ⟨k, hk, rfl⟩ := hall y hy
          exact not_lt.1 fun h' => absurd ((hstrict i k hi hk).1 h') (by omega)
      have hso := single_ordered (n := n) row ((un.length : ℤ) - 1) ((n : ℤ) - row.length) (un.zip gs).zipIdx (fun _ => m - 1 / 100) (fun p hp => by
        obtain ⟨a1, a2, a3⟩ := (hmem p).1 hp
        rw [a3]
        exact ⟨h3 _ (hgp.mem_iff.1 (List.getElem_mem _)), (hmu _).1 (List.getElem_mem _)⟩)
      have hiff : Spec.Fits d n row true ↔ ∀ p ∈ (un.zip gs).zipIdx, if p.2 = 0 ∨ (p.2 : ℤ) = (un.length : ℤ) - 1 then
          1 - (row.count p.1.1 : ℤ) ≤ (n : ℤ) - row.length else row.count p.1.1 = 1 := by
        constructor
        · intro hfit p hp
          obtain ⟨a1, a2, a3⟩ := (hmem p).1 hp
          rw [a3]
          simp only
          have hx : un[p.2] ∈ row := (hmu _).1 (List.getElem_mem _)
          split_ifs with hc
          · rw [← (hend p.2 a1).1, ← (hend p.2 a1).2] at hc
            have := (hfit _ hx).1 hc
            omega
          · rw [not_or] at hc
            refine (hfit _ hx).2 ⟨un[0], (hmu _).1 (List.getElem_mem _), (hstrict 0 p.2 (by omega) a1).2 (by omega)⟩
              ⟨un[un.length - 1], (hmu _).1 (List.getElem_mem _), (hstrict p.2 (un.length - 1) a1 (by omega)).2 (by omega)⟩
        · intro hall x hx
          obtain ⟨i, hi, rfl⟩ := List.getElem_of_mem ((hmu x).2 hx)
          have h4 := hall ((un[i], gs[i]'(by omega)), i) ((hmem _).2 ⟨hi, by simp only; omega, rfl⟩)
          simp only at h4
          constructor
          · intro hc
            rw [(hend i hi).1, (hend i hi).2] at hc
            rw [if_pos hc] at h4
            omega
          · rintro ⟨y, hy, hyx⟩ ⟨z, hz, hxz⟩
            rw [if_neg] at h4
            · exact h4
            · rw [not_or, ← (hend i hi).1, ← (hend i hi).2]
              exact ⟨fun h => absurd (h y hy) (not_le.2 hyx), fun h => absurd (h z hz) (not_le.2 hxz)⟩
      constructor
      · intro hfit
        obtain ⟨st, hst⟩ := hso.1 (hiff.1 hfit)
        rw [hst]
        exact ⟨_, rfl⟩
      · intro hfit
        rw [hiff] at hfit
        simp only [not_forall] at hfit
        obtain ⟨p, hp, hnot⟩ := hfit
        rw [hso.2 ⟨p, hp, hnot⟩]
        rfl
  refine ⟨fun hlt => ?_, fun hnil => ?_, fun hne hle => (main hne hle).1, fun hle hfit => ?_⟩
  · unfold modelBands
    rw [h1]
    simp only
    rw [if_pos (by rw [h2, hlen]; omega)]
  · subst hnil
    unfold modelBands
    rw [h1]
    simp only
    rw [if_neg (by rw [h2, hlen]; simp)]
    rfl
  · by_cases hne : row = []
    · subst hne
      refine absurd ?_ hfit
      cases ordered <;> simp [Spec.Fits]
    · exact (main hne hle).2 hfit

theorem init_eq {ρ : UR.Rep ℝ ℂ d n} (hU : ρ.U.length = 1) (hinv : ρ.sym.inversion = false) (hn : n ≠ 0) (setOrder : List ℝ → List ℝ)
    (shuffle : ℕ → List (List Bool) → List (List Bool)) (rnd : ℕ → Matrix (Fin n) (Fin n) ℝ × Matrix (Fin n) (Fin n) ℝ) (rest : List (RVec d))
    (ks : List (RVec d)) (ref : List (List ℝ)) (ordered : Bool) (i : ℕ) (hi : InitRef.Spec.FirstZero ks i) (row : List ℝ) (hrow : ref[i]? = some row) :
    (∀ bands, modelBands ρ setOrder shuffle (row.map round5) ordered = .ok bands → ∃ t, initFromRef ρ setOrder shuffle rnd (0 :: rest) ks ref ordered = .ok t) ∧
    ∀ er, modelBands ρ setOrder shuffle (row.map round5) ordered = .error er → initFromRef ρ setOrder shuffle rnd (0 :: rest) ks ref ordered = .error er := by
  have hz : InitRef.zeroRow ks ref = .ok row := by rw [InitRef.zeroRow_ok hi, hrow]; rfl
  have hne : ks ≠ [] := fun h => by rw [h] at hi; exact absurd hi.1 (by simp)
  cases ks with
  | nil => exact absurd rfl hne
  | cons k0 ks =>
    constructor
    · intro bands hb
      unfold initFromRef
      simp only
      rw [if_neg (not_not.2 (rfl : d = d)), if_neg (not_not.2 (vnorm_eq_zero.2 rfl)), hz]
      simp only [bind, Except.bind]
      rw [hb]
      simp only
      rw [if_neg hn]
      have hlen : (startParams (paramCount ρ.sym.inversion (0 :: rest : List (RVec d)).length) bands rnd).length + 1 = 2 * (0 :: rest : List (RVec d)).length := by
        rw [hinv]
        simp [startParams, InitRef.asymHr, paramCount]
        omega
      obtain ⟨t, ht⟩ : ∃ t, mkTBM ρ (0 :: rest) (some (startParams (paramCount ρ.sym.inversion (0 :: rest : List (RVec d)).length) bands rnd)) = .ok t :=
        ⟨⟨0 :: rest, _, .ok⟩, (C105_constructor _ _ _ _).2 ⟨⟨rest, rfl⟩, hU, hinv, rfl, fun _ => rfl, hlen, .inl rfl⟩⟩
      rw [ht]
      simp only
      have hnorm : t.normalize = (t, .ok ()) := by
        unfold TBM.normalize
        rw [((C105_constructor _ _ _ _).1 ht).2.2.2.2.1]
      rw [hnorm]
      exact ⟨t, rfl⟩
    · intro er hb
      unfold initFromRef
      simp only
      rw [if_neg (not_not.2 (rfl : d = d)), if_neg (not_not.2 (vnorm_eq_zero.2 rfl)), hz]
      simp only [bind, Except.bind]
      rw [hb]

theorem start_exact (ρ : UR.Rep ℝ ℂ d n) (hU : ρ.U = [1]) (hd : d ≠ 0) (row : List ℝ) (hlen : row.length = n) (ordered : Bool) (bands : Fin n → ℝ)
    (h : Spec.Start ρ row ordered bands) : (List.ofFn bands).Perm row ↔ row.Nodup := by
  classical
  have hcount : ∀ x, (List.ofFn bands).count x = Spec.states bands x := by
    intro x
    unfold Spec.states
    rw [List.ofFn_eq_map, List.count, List.countP_map, Fin.univ_def, Finset.card, Finset.filter]
    simp only [Multiset.filter_coe, Multiset.coe_card, List.countP_eq_length_filter]
    congr 2
  have hone : ∀ x ∈ row, ordered = true ∨ row.count x ≤ d → Spec.states bands x = 1 := by
    intro x hx hc
    obtain ⟨i, hi⟩ := h.carried x hx hc
    unfold Spec.states
    rw [Finset.card_eq_one]
    refine ⟨i, ?_⟩
    ext j
    simp only [Finset.mem_filter, Finset.mem_univ, true_and, Finset.mem_singleton]
    rw [hi, coupled_one hU]
    exact eq_comm
  constructor
  · intro hp
    rw [List.nodup_iff_count_le_one]
    intro x
    by_cases hx : x ∈ row
    · rw [← hp.count_eq, hcount]
      by_cases hc : ordered = true ∨ row.count x ≤ d
      · exact (hone x hx hc).le
      · rw [not_or, not_le, Bool.not_eq_true] at hc
        have : Spec.states bands x = 0 := by
          unfold Spec.states
          rw [Finset.card_eq_zero, Finset.filter_eq_empty_iff]
          exact fun j _ => h.dropped hc.1 x hx hc.2 j
        omega
    · rw [List.count_eq_zero_of_not_mem hx]; omega
  · intro hnd
    have hsub : row.Subperm (List.ofFn bands) := List.Nodup.subperm hnd fun x hx => by
      have h1 := hone x hx (.inr (by rw [List.count_eq_one_of_mem hnd hx]; omega))
      rw [← List.count_pos_iff, hcount, h1]
      exact one_pos
    exact (hsub.perm_of_length_le (by rw [List.length_ofFn, hlen])).symm

open Classical in
theorem items_degs {dim : ℕ} {row unique : List ℝ} (h : unique.Perm row.dedup) : (items dim row unique).map (fun p => p.1 + 1) =
    ((row.dedup.map fun x => row.count x).filter fun c => decide (c ≤ dim)).insertionSort (· ≤ ·) := by
  have hund : unique.Nodup := h.nodup_iff.2 (List.nodup_dedup _)
  have hmap : (items dim row unique).map (fun p => p.1 + 1) = ((items dim row unique).map Prod.snd).map fun x => row.count x := by
    rw [List.map_map]
    refine List.map_congr_left fun p hp => ?_
    exact (mem_items.1 hp).2.1.symm
  refine List.Perm.eq_of_pairwise' (r := (· ≤ ·)) ?_ (List.pairwise_insertionSort _ _) ?_
  · rw [List.pairwise_map]
    exact (items_sorted dim row unique).imp fun h => by omega
  · refine List.Perm.trans ?_ (List.perm_insertionSort _ _).symm
    rw [hmap, List.filter_map]
    refine List.Perm.map _ ?_
    rw [List.perm_ext_iff_of_nodup (items_nodup _ _ _ hund) ((List.nodup_dedup _).filter _)]
    intro x
    rw [List.mem_map, List.mem_filter]
    constructor
    · rintro ⟨p, hp, rfl⟩
      obtain ⟨h1, h2, h3⟩ := mem_items.1 hp
      exact ⟨h.mem_iff.1 h1, by simp only [Function.comp_apply, decide_eq_true_eq]; omega⟩
    · rintro ⟨h1, h2⟩
      simp only [Function.comp_apply, decide_eq_true_eq] at h2
      have h3 := List.count_pos_iff.2 (List.mem_dedup.1 h1)
      exact ⟨(row.count x - 1, x), mem_items.2 ⟨h.mem_iff.2 h1, by simp only; omega, by simp only; omega⟩, rfl⟩

theorem sized_sizes {shuffle : ℕ → List (List Bool) → List (List Bool)} (hsh : ∀ i l, (shuffle i l).Perm l) {groups : List (List Bool)} {dim : ℕ}
    (hnd : groups.Nodup) (h0 : ∀ g ∈ groups, g.count true ≠ 0) :
    (sized shuffle dim groups (groups.map fun g => g.count true)).flatten.map (fun g => g.count true) =
      ((groups.map fun g => g.count true).filter fun c => decide (c ≤ dim)).insertionSort (· ≤ ·) := by
  have hs0 := sized_sized shuffle hsh groups dim 0
  have hn0 := sized_nodup shuffle hsh groups hnd dim 0
  rw [← List.range_eq_range'] at hs0 hn0
  change SizedFrom 0 (sized shuffle dim groups _) at hs0
  change (sized shuffle dim groups _).flatten.Nodup at hn0
  refine List.Perm.eq_of_pairwise' (r := (· ≤ ·)) (sizedFrom_sorted hs0) (List.pairwise_insertionSort _ _) ?_
  refine List.Perm.trans ?_ (List.perm_insertionSort _ _).symm
  rw [List.filter_map]
  refine List.Perm.map _ ?_
  rw [List.perm_ext_iff_of_nodup hn0 (hnd.filter _)]
  intro g
  rw [List.mem_filter]
  simp only [Function.comp_apply, decide_eq_true_eq]
  constructor
  · intro hg
    refine ⟨sized_mem shuffle hsh dim groups _ g hg, ?_⟩
    rw [sized, List.mem_flatten] at hg
    obtain ⟨l, hl, hg⟩ := hg
    obtain ⟨i, hi, rfl⟩ := List.mem_map.1 hl
    rw [(hsh _ _).mem_iff, zip_counts, List.mem_map] at hg
    obtain ⟨p, hp, rfl⟩ := hg
    obtain ⟨hp1, hp2⟩ := List.mem_filter.1 hp
    obtain ⟨g', -, rfl⟩ := List.mem_map.1 hp1
    simp only [beq_iff_eq] at hp2
    have := List.mem_range.1 hi
    simp only
    omega
  · rintro ⟨h1, h2⟩
    have h3 := h0 g h1
    rw [sized, List.mem_flatten]
    refine ⟨_, List.mem_map.2 ⟨g.count true - 1, List.mem_range.2 (by omega), rfl⟩, ?_⟩
    rw [(hsh _ _).mem_iff, zip_counts, List.mem_map]
    exact ⟨(g, g.count true), List.mem_filter.2 ⟨List.mem_map.2 ⟨g, h1, rfl⟩, by simp only [beq_iff_eq]; omega⟩, rfl⟩

open Classical in
/-- The data at `k = 0` fit into the classes of coupled states `groups` (as returned by `subspaces`). -/
def Spec.FitsGroups (d n : ℕ) (row : List ℝ) (groups : List (List Bool)) (ordered : Bool) : Prop :=
  match ordered with
  | false => Room ((n : ℤ) - row.length) (((row.dedup.map fun x => row.count x).filter fun c => decide (c ≤ d)).insertionSort (· ≤ ·))
      (((groups.map fun g => g.count true).filter fun c => decide (c ≤ d)).insertionSort (· ≤ ·))
  | true => RoomOrdered ((n : ℤ) - row.length) ((row.dedup.insertionSort (· ≤ ·)).map fun x => row.count x)
      (((groups.insertionSort fun a b => a.idxOf true ≤ b.idxOf true).map fun g => g.count true).take row.dedup.length)

open Classical in
theorem modelBands_general {ρ : UR.Rep ℝ ℂ d n} {setOrder : List ℝ → List ℝ} (hset : ∀ l, (setOrder l).Perm l.dedup)
    {shuffle : ℕ → List (List Bool) → List (List Bool)} (hsh : ∀ i l, (shuffle i l).Perm l) (row : List ℝ) (ordered : Bool)
    {groups : List (List Bool)} {counts : List ℕ} (hg : ρ.subspaces = .ok (groups, counts)) :
    (groups.length < row.dedup.length → modelBands ρ setOrder shuffle row ordered = .error .assertionError) ∧
    (row = [] → modelBands ρ setOrder shuffle row ordered = .error .valueError) ∧
    (row ≠ [] → row.dedup.length ≤ groups.length →
      (Spec.FitsGroups d n row groups ordered → ∃ b, modelBands ρ setOrder shuffle row ordered = .ok b) ∧
      (¬ Spec.FitsGroups d n row groups ordered → modelBands ρ setOrder shuffle row ordered = .error .valueError)) := by
  obtain ⟨hap, rfl, hnd, hrow⟩ := groups_apart hg
  have hperm := hset row
  have hlen := hperm.length_eq
  refine ⟨fun h => ?_, fun h => ?_, fun hne hle => ?_⟩
  · unfold modelBands
    rw [hg]
    simp only
    rw [if_pos (by rw [hlen]; omega)]
  · subst h
    unfold modelBands
    rw [hg]
    simp only
    rw [if_neg (by rw [hlen]; simp)]
    rfl
  · unfold modelBands
    rw [hg]
    simp only
    rw [if_neg (by rw [hlen]; omega)]
    cases hm : row.min? with
    | none => exact absurd (List.min?_eq_none_iff.1 hm) hne
    | some m =>
      simp only
      cases ordered with
      | false =>
        rw [if_neg (by simp)]
        unfold assignFree
        have hs0 := sized_sized shuffle hsh groups d 0
        rw [← List.range_eq_range'] at hs0
        have hf := free_iff (items d row (setOrder row)) (⟨fun _ => m - 1 / 100, sized shuffle d groups (groups.map fun g => g.count true),
          (n : ℤ) - row.length⟩ : St n) hs0
        simp only at hf
        rw [items_degs hperm, sized_sizes hsh hnd fun g hg => (hrow g hg).2.1] at hf
        refine ⟨fun h => ?_, fun h => ?_⟩
        · obtain ⟨st, hst⟩ := hf.1 h
          rw [hst]; exact ⟨_, rfl⟩
        · rw [hf.2 h]; rfl
      | true =>
        rw [if_pos rfl]
        unfold assignOrdered
        simp only
        have hun : (setOrder row).insertionSort (· ≤ ·) = row.dedup.insertionSort (· ≤ ·) := by
          refine List.Perm.eq_of_pairwise' (r := (· ≤ ·)) (List.pairwise_insertionSort _ _) (List.pairwise_insertionSort _ _) ?_
          exact (List.perm_insertionSort _ _).trans (hperm.trans (List.perm_insertionSort _ _).symm)
        rw [hun]
        set gs := groups.insertionSort fun a b => a.idxOf true ≤ b.idxOf true with hgs
        set un := row.dedup.insertionSort (· ≤ ·) with hundef
        have hgl : gs.length = groups.length := (List.perm_insertionSort _ _).length_eq
        have hul : un.length = row.dedup.length := (List.perm_insertionSort _ _).length_eq
        have hmin2 : min un.length gs.length = (un.zip gs).length := by rw [List.length_zip]
        rw [hmin2]
        have hfst : (un.zip gs).map (fun p => row.count p.1) = un.map fun x => row.count x := by
          have : (un.zip gs).map Prod.fst = un := List.map_fst_zip (by omega)
          conv_rhs => rw [← this, List.map_map]
          rfl
        have hsnd : (un.zip gs).map (fun p => p.2.count true) = (gs.map fun g => g.count true).take row.dedup.length := by
          have : (un.zip gs).map Prod.snd = gs.take un.length := by
            have h1 : un.zip gs = un.zip (gs.take un.length) := by
              rw [@List.zip_eq_zip_take_min _ _ un gs, min_eq_left (by omega), List.take_length]
            rw [h1, List.map_snd_zip (by rw [List.length_take]; omega)]
          rw [← hul, ← List.map_take, ← this, List.map_map]
          rfl
        have ho := ordered_iff row ((n : ℤ) - row.length) (fun _ : Fin n => m - 1 / 100) (un.zip gs)
        rw [hfst, hsnd] at ho
        refine ⟨fun h => ?_, fun h => ?_⟩
        · obtain ⟨st, hst⟩ := ho.1 h
          rw [hst]; exact ⟨_, rfl⟩
        · rw [ho.2 h]; rfl

/-! ## theorems -/

/-- C126.  If `init_from_ref` returns, the matrix of the model at `k = 0` is diagonal, with the energies at `k = 0` (rounded to five decimals, wrong
by at most `5e-6`) placed as in `Spec.Start`; all parameters are hermitian, those of the other terms at most three thousandths of the spread of the
start values. -/
theorem C126_gamma (ρ : UR.Rep ℝ ℂ d n) (setOrder : List ℝ → List ℝ) (hset : ∀ l, (setOrder l).Perm (open Classical in l.dedup))
    (shuffle : ℕ → List (List Bool) → List (List Bool)) (hsh : ∀ i l, (shuffle i l).Perm l)
    (rnd : ℕ → Matrix (Fin n) (Fin n) ℝ × Matrix (Fin n) (Fin n) ℝ) (hrnd : ∀ i, InitRef.Spec.Random (rnd i).1 ∧ InitRef.Spec.Random (rnd i).2)
    (N : List (RVec d)) (ks : List (RVec e)) (ref : List (List ℝ)) (ordered : Bool) (t : TBM d n)
    (h : initFromRef ρ setOrder shuffle rnd N ks ref ordered = .ok t) :
    ∃ (i : ℕ) (row : List ℝ) (round : ℝ → ℝ) (bands : Fin n → ℝ), InitRef.Spec.FirstZero ks i ∧ ref[i]? = some row ∧ (∀ x, (∃ z : ℤ, round x = z / 100000) ∧ |round x - x| ≤ 1 / 200000) ∧
      t.f 0 = .ok (diagonal fun j => (bands j : ℂ)) ∧ Spec.Start ρ (row.map round) ordered bands ∧ t.nbrs = N ∧
      (∀ X ∈ t.params, X.IsHermitian) ∧ ∀ w, (∀ i j, |bands i - bands j| ≤ w) → ∀ X ∈ t.params.drop 1, ∀ i j, ‖X i j‖ ≤ w * (3 / 1000) := by
  obtain ⟨-, -, hn, i, row, bands, h1, h2, h3, hB⟩ := init_inv h
  refine ⟨i, row, round5, bands, h1, h2, fun x => ⟨⟨_, rfl⟩, round5_near x⟩, ?_, modelBands_start hset hsh h3, ?_, ?_, ?_⟩
  · obtain ⟨P0, A, B, h4, -, -, -, h5⟩ := C105_value _ _ _ _ hB.made
    rw [h5]
    rw [hB.params] at h4
    exact congrArg Except.ok (List.cons.inj h4).1.symm
  · exact ((C105_constructor _ _ _ _).1 hB.made).2.2.2.1
  · rw [hB.params]; exact start_herm _ _ _
  · intro w hw
    rw [hB.params]; exact start_bound hn _ _ _ hrnd hw

/-- C126.  With more than one matrix in the representation, or with inversion, `init_from_ref` never returns. -/
theorem C126_no_symmetry (ρ : UR.Rep ℝ ℂ d n) (setOrder : List ℝ → List ℝ) (shuffle : ℕ → List (List Bool) → List (List Bool))
    (rnd : ℕ → Matrix (Fin n) (Fin n) ℝ × Matrix (Fin n) (Fin n) ℝ) (N : List (RVec d)) (ks : List (RVec e)) (ref : List (List ℝ)) (ordered : Bool)
    (hρ : ρ.U.length ≠ 1 ∨ ρ.sym.inversion = true) (t : TBM d n) : initFromRef ρ setOrder shuffle rnd N ks ref ordered ≠ .ok t := by
  intro h
  obtain ⟨-, -, -, _, _, _, -, -, -, hB⟩ := init_inv h
  rcases hρ with h1 | h1
  · exact h1 hB.len
  · rw [hB.inv] at h1; cases h1


/-- C126.  Any representation with one matrix and no inversion, samples with `k = 0`.  `AssertionError` if there are fewer classes of coupled states than
distinct energies (rounded to five decimals) at `k = 0`; otherwise the model is returned exactly if there are data and they fit (`Spec.FitsGroups`:
without `use_repr_order` the energies by increasing degeneracy into the classes by increasing size, with it by increasing energy into the classes
by first state), and `ValueError` is raised if not. -/
theorem C126_returns (ρ : UR.Rep ℝ ℂ d n) (hU : ρ.U.length = 1) (hinv : ρ.sym.inversion = false) (hn : n ≠ 0) (setOrder : List ℝ → List ℝ)
    (hset : ∀ l, (setOrder l).Perm (open Classical in l.dedup)) (shuffle : ℕ → List (List Bool) → List (List Bool)) (hsh : ∀ i l, (shuffle i l).Perm l)
    (rnd : ℕ → Matrix (Fin n) (Fin n) ℝ × Matrix (Fin n) (Fin n) ℝ) (rest : List (RVec d)) (ks : List (RVec d)) (ref : List (List ℝ)) (ordered : Bool)
    (i : ℕ) (hi : InitRef.Spec.FirstZero ks i) (row : List ℝ) (hrow : ref[i]? = some row) :
    open Classical in
    (ρ.subspaces = .error .assertionError → initFromRef ρ setOrder shuffle rnd (0 :: rest) ks ref ordered = .error .assertionError) ∧
    ∀ groups counts, ρ.subspaces = .ok (groups, counts) →
    (groups.length < (row.map round5).dedup.length → initFromRef ρ setOrder shuffle rnd (0 :: rest) ks ref ordered = .error .assertionError) ∧
    ((row.map round5).dedup.length ≤ groups.length →
      (row ≠ [] ∧ Spec.FitsGroups d n (row.map round5) groups ordered → ∃ t, initFromRef ρ setOrder shuffle rnd (0 :: rest) ks ref ordered = .ok t) ∧
      (¬ (row ≠ [] ∧ Spec.FitsGroups d n (row.map round5) groups ordered) →
        initFromRef ρ setOrder shuffle rnd (0 :: rest) ks ref ordered = .error .valueError)) := by
  classical
  obtain ⟨h1, h2⟩ := init_eq hU hinv hn setOrder shuffle rnd rest ks ref ordered i hi row hrow
  refine ⟨fun h => h2 _ ?_, fun groups counts hg => ?_⟩
  · unfold modelBands
    rw [h]
  obtain ⟨m1, m2, m3⟩ := modelBands_general hset hsh (row.map round5) ordered hg
  refine ⟨fun h => h2 _ (m1 h), fun hle => ⟨fun h => ?_, fun h => h2 _ ?_⟩⟩
  · obtain ⟨b, hb⟩ := (m3 (by simpa using h.1) hle).1 h.2
    exact h1 b hb
  · by_cases hr : row = []
    · exact m2 (by simp [hr])
    · exact (m3 (by simpa using hr) hle).2 fun h' => h ⟨hr, h'⟩

/-- C126.  Arguments that are refused whatever the representation. -/
theorem C126_arguments (ρ : UR.Rep ℝ ℂ d n) (setOrder : List ℝ → List ℝ) (shuffle : ℕ → List (List Bool) → List (List Bool))
    (rnd : ℕ → Matrix (Fin n) (Fin n) ℝ × Matrix (Fin n) (Fin n) ℝ) (N : List (RVec d)) (ks : List (RVec e)) (ref : List (List ℝ)) (ordered : Bool) :
    (ks = [] ∨ N = [] → initFromRef ρ setOrder shuffle rnd N ks ref ordered = .error .indexError) ∧
    (ks ≠ [] → ∀ r0 rest, N = r0 :: rest → e ≠ d ∨ r0 ≠ 0 ∨ (0 : RVec e) ∉ ks →
      initFromRef ρ setOrder shuffle rnd N ks ref ordered = .error .assertionError) ∧
    (∀ rest, N = 0 :: rest → e = d → ∀ i, InitRef.Spec.FirstZero ks i → ref[i]? = none →
      initFromRef ρ setOrder shuffle rnd N ks ref ordered = .error .indexError) := by
  refine ⟨?_, ?_, ?_⟩
  · rintro (rfl | rfl)
    · rfl
    · cases ks <;> rfl
  · rintro hks r0 rest rfl h
    cases ks with
    | nil => exact absurd rfl hks
    | cons k ks =>
      unfold initFromRef
      simp only
      by_cases h1 : e ≠ d
      · rw [if_pos h1]
      rw [if_neg h1]
      by_cases h2 : r0 = 0
      · rw [if_neg (not_not.2 (vnorm_eq_zero.2 h2))]
        have h3 : (0 : RVec e) ∉ k :: ks := by
          rcases h with h | h | h
          · exact absurd h h1
          · exact absurd h2 h
          · exact h
        rw [InitRef.zeroRow_missing hks h3]
        rfl
      · rw [if_pos fun h => h2 (vnorm_eq_zero.1 h)]
  · rintro rest rfl rfl i hi hr
    cases ks with
    | nil => exact absurd hi.1 (by simp)
    | cons k ks =>
      unfold initFromRef
      simp only
      rw [if_neg (not_not.2 (rfl : e = e)), if_neg (not_not.2 (vnorm_eq_zero.2 rfl)), InitRef.zeroRow_ok hi, hr]
      rfl

/-- C126.  The trivial group (one unit matrix, no inversion), samples with `k = 0`: `AssertionError` if the data at `k = 0` have more distinct energies
(rounded to five decimals) than the model has bands; otherwise the model is returned exactly if there are data and they fit in the sense of
`Spec.Fits`, and `ValueError` is raised if not. -/
theorem C126_trivial (ρ : UR.Rep ℝ ℂ d n) (hU : ρ.U = [1]) (hinv : ρ.sym.inversion = false) (hn : n ≠ 0) (setOrder : List ℝ → List ℝ)
    (hset : ∀ l, (setOrder l).Perm (open Classical in l.dedup)) (shuffle : ℕ → List (List Bool) → List (List Bool)) (hsh : ∀ i l, (shuffle i l).Perm l)
    (rnd : ℕ → Matrix (Fin n) (Fin n) ℝ × Matrix (Fin n) (Fin n) ℝ) (rest : List (RVec d)) (ks : List (RVec d)) (ref : List (List ℝ)) (ordered : Bool)
    (i : ℕ) (hi : InitRef.Spec.FirstZero ks i) (row : List ℝ) (hrow : ref[i]? = some row) :
    open Classical in
    (n < (row.map round5).dedup.length → initFromRef ρ setOrder shuffle rnd (0 :: rest) ks ref ordered = .error .assertionError) ∧
    ((row.map round5).dedup.length ≤ n →
      (row ≠ [] ∧ Spec.Fits d n (row.map round5) ordered → ∃ t, initFromRef ρ setOrder shuffle rnd (0 :: rest) ks ref ordered = .ok t) ∧
      (¬ (row ≠ [] ∧ Spec.Fits d n (row.map round5) ordered) → initFromRef ρ setOrder shuffle rnd (0 :: rest) ks ref ordered = .error .valueError)) := by
  obtain ⟨h1, h2⟩ := init_eq (by rw [hU]; rfl) hinv hn setOrder shuffle rnd rest ks ref ordered i hi row hrow
  obtain ⟨m1, m2, m3, m4⟩ := modelBands_one hU hset hsh (row.map round5) ordered
  refine ⟨fun h => h2 _ (m1 h), fun hle => ⟨fun h => ?_, fun h => h2 _ ?_⟩⟩
  · obtain ⟨b, hb⟩ := m3 (by simpa using h.1) hle h.2
    exact h1 b hb
  · rw [not_and_or, not_not] at h
    rcases h with h | h
    · exact m2 (by simp [h])
    · exact m4 hle h

/-- C126.  The trivial group in at least one dimension, with as many bands as the data: the energies of the returned model at `k = 0` are the
(rounded) data exactly if these have no degeneracy. -/
theorem C126_exact (ρ : UR.Rep ℝ ℂ d n) (hU : ρ.U = [1]) (hd : d ≠ 0) (setOrder : List ℝ → List ℝ)
    (hset : ∀ l, (setOrder l).Perm (open Classical in l.dedup)) (shuffle : ℕ → List (List Bool) → List (List Bool)) (hsh : ∀ i l, (shuffle i l).Perm l)
    (rnd : ℕ → Matrix (Fin n) (Fin n) ℝ × Matrix (Fin n) (Fin n) ℝ) (N : List (RVec d)) (ks : List (RVec e)) (ref : List (List ℝ)) (ordered : Bool)
    (t : TBM d n) (h : initFromRef ρ setOrder shuffle rnd N ks ref ordered = .ok t) (i : ℕ) (hi : InitRef.Spec.FirstZero ks i) (row : List ℝ)
    (hrow : ref[i]? = some row) (hlen : row.length = n) :
    ∃ bands : Fin n → ℝ, t.f 0 = .ok (diagonal fun j => (bands j : ℂ)) ∧ ((List.ofFn bands).Perm (row.map round5) ↔ (row.map round5).Nodup) := by
  obtain ⟨-, -, hn, i', row', bands, h1, h2, h3, hB⟩ := init_inv h
  obtain rfl := InitRef.firstZero_unique hi h1
  rw [hrow] at h2
  obtain rfl := Option.some.inj h2
  refine ⟨bands, ?_, start_exact ρ hU hd _ (by rw [List.length_map, hlen]) ordered bands (modelBands_start hset hsh h3)⟩
  obtain ⟨P0, A, B, h4, -, -, -, h5⟩ := C105_value _ _ _ _ hB.made
  rw [h5]
  rw [hB.params] at h4
  exact congrArg Except.ok (List.cons.inj h4).1.symm

/-- The trivial group on two states in three dimensions. -/
noncomputable def exTriv : UR.Rep ℝ ℂ 3 2 := ⟨⟨[1], false⟩, [1], 2⟩

theorem round5_int (z : ℤ) : round5 z = z := by
  unfold round5
  have : Naive.pyRound ((z : ℝ) * 100000) = z * 100000 := Naive.pyRound_nearest (.inl (by push_cast; simp))
  rw [this]
  push_cast
  field_simp

/-- A doubly degenerate energy `1` for a model with two states: `init_from_ref` returns, the energies at `k = 0` are not `1, 1`. -/
example : ∃ (t : TBM 3 2) (bands : Fin 2 → ℝ),
    initFromRef exTriv (fun l => open Classical in l.dedup) (fun _ l => l) (fun _ => (0, 0)) [0] [(0 : RVec 3)] [[1, 1]] false = .ok t ∧
    t.f 0 = .ok (diagonal fun j => (bands j : ℂ)) ∧ ¬ (List.ofFn bands).Perm [1, 1] := by
  classical
  have hz : InitRef.Spec.FirstZero [(0 : RVec 3)] 0 := ⟨rfl, fun j hj => absurd hj (by omega)⟩
  have hr : ([1, 1] : List ℝ).map round5 = [1, 1] := by
    have := round5_int 1
    simp only [Int.cast_one] at this
    simp [this]
  have h := (C126_trivial exTriv rfl rfl (by omega) (fun l => l.dedup) (fun l => by convert List.Perm.refl _) (fun _ l => l) (fun _ l => .refl _)
    (fun _ => (0, 0)) [] [(0 : RVec 3)] [[1, 1]] false 0 hz [1, 1] rfl).2
  rw [hr] at h
  obtain ⟨t, ht⟩ := (h (by simp [List.dedup_cons_of_mem])).1 ⟨by simp, fun x hx _ => by
    simp only [List.mem_cons, List.not_mem_nil, or_false, or_self] at hx
    subst hx
    simp⟩
  obtain ⟨bands, h1, h2⟩ := C126_exact exTriv rfl (by omega) _ (fun l => by convert List.Perm.refl _) _ (fun _ l => .refl _) _ _ _ _ _ t ht 0 hz [1, 1] rfl rfl
  refine ⟨t, bands, ht, h1, fun h3 => ?_⟩
  rw [hr] at h2
  exact absurd (h2.1 h3) (by simp)

/-- Two coupled states. -/
noncomputable def exPair : UR.Rep ℝ ℂ 3 2 := ⟨⟨[1], false⟩, [!![0, 1; 1, 0] + 1], 2⟩

open Classical in
theorem exPair_subspaces : exPair.subspaces = .ok ([[true, true]], [2]) := by
  have h : exPair.occupancy = [[true, true], [true, true]] := by
    simp [UR.Rep.occupancy, exPair, List.finRange_succ]
  unfold UR.Rep.subspaces
  simp only
  rw [h]
  decide

/-- `C126_returns`: one energy for two coupled states. -/
example : ∃ t, initFromRef exPair (fun l => open Classical in l.dedup) (fun _ l => l) (fun _ => (0, 0)) [0] [(0 : RVec 3)] [[1]] false = .ok t := by
  classical
  have hz : InitRef.Spec.FirstZero [(0 : RVec 3)] 0 := ⟨rfl, fun j hj => absurd hj (by omega)⟩
  have hr : ([1] : List ℝ).map round5 = [1] := by
    have := round5_int 1
    simp only [Int.cast_one] at this
    simp [this]
  have h := ((C126_returns exPair rfl rfl (by omega) (fun l => l.dedup) (fun l => by convert List.Perm.refl _) (fun _ l => l) (fun _ l => .refl _)
    (fun _ => (0, 0)) [] [(0 : RVec 3)] [[1]] false 0 hz [1] rfl).2 _ _ exPair_subspaces).2
  rw [hr] at h
  refine (h (by simp)).1 ⟨by simp, ?_⟩
  simp [Spec.FitsGroups, Room]

end TB.PropsTbmInit
