import Verif.Model.Autofit
import Verif.Props.Files
import Verif.Props.Fourier

/-!
# C116: `autofit_asym`
-/

set_option linter.unusedSectionVars false
set_option linter.unusedSimpArgs false

namespace TB.Autofit
open Matrix TB.Files

variable {C PO : Type} {d n m : ℕ}

/-! ## Specification -/

/-- Positions of the neighbours of a model. -/
def Spec.nbrs (t : Tb d n) : List (RVec d) := t.H.terms.map Prod.fst

/-- Randomising, normalising and fitting keep the positions. -/
structure Spec.Keeps (o : Ops d n m) : Prop where
  randStart : ∀ c t, Spec.nbrs (o.randStart c t) = Spec.nbrs t
  rand : ∀ c i s t, Spec.nbrs (o.rand c i s t) = Spec.nbrs t
  normalize : ∀ t t', o.normalize t = .ok t' → Spec.nbrs t' = Spec.nbrs t
  cg : ∀ ks ref a b t g t' g', o.cg ks ref a b t g = .ok (t', g') → Spec.nbrs t' = Spec.nbrs t

/-- `idx` sorts the samples by their distance to zero. -/
structure Spec.Argsort (ks : List (RVec d)) (idx : List ℕ) : Prop where
  perm : idx.Perm (List.range ks.length)
  sorted : (idx.map fun i => vnorm (ks.getD i 0)).Pairwise (· ≤ ·)

/-- `asym_{name}_{s}.json`. -/
def Spec.file (name : Name) (s : List Char) : Name :=
  'a' :: 's' :: 'y' :: 'm' :: '_' :: (name ++ '_' :: (s ++ ['.', 'j', 's', 'o', 'n']))

/-- The word in the name of the first checkpoint. -/
def Spec.start : List Char := ['s', 't', 'a', 'r', 't']

/-- Decimal digits. -/
def Spec.decimal (c : ℕ) : List Char := (toString c).toList

/-- The file holds what `save` writes for the model `t`. -/
def Spec.Holds (L : Lib C PO) (w : World C PO) (f : Name) (t : Tb d n) : Prop :=
  ∃ j, Fmt.save (t.H.terms.map fun x => List.ofFn x.1) (t.H.terms.map fun x i j => ((x.2 i j).re, (x.2 i j).im)) = .ok j ∧
    w.files f = some (L.dump j)

/-- The files that may be written: the start file, and those for `start+1 .. len(neighbors_src)` if there are neighbours left. -/
def Spec.Checkpoint (name : Name) (start len : ℕ) (f : Name) : Prop :=
  f = Spec.file name Spec.start ∨ start + 1 < len ∧ ∃ c, start + 1 ≤ c ∧ c ≤ len ∧ f = Spec.file name (Spec.decimal c)

/-- The positions before and after the star of `src[c]` has been added: none of the new positions is listed, or there is only one and it is
listed; then it is left out. -/
def Spec.Grows (complete : List (RVec d) → Except Err (List (RVec d))) (src : List (RVec d)) (c : ℕ) (before after : List (RVec d)) : Prop :=
  ∃ r new, src[c]? = some r ∧ complete [r] = .ok new ∧
    ((∀ x ∈ new, ∀ y ∈ before, ¬ vnorm (y - x) < 1e-5) ∧ after = before ++ new ∨
      (∃ x, new = [x] ∧ ∃ y ∈ before, vnorm (y - x) < 1e-5) ∧ after = before)

/-! ## File names -/

theorem fileName_eq (name s : Name) : fileName name s = Spec.file name s := by
  simp [fileName, Spec.file, dotJson]

theorem file_inj (name : Name) {s t : List Char} (h : Spec.file name s = Spec.file name t) : s = t := by
  unfold Spec.file at h
  simpa using h

theorem decimal_eq (c : ℕ) : Spec.decimal c = Nat.toDigits 10 c := by
  unfold Spec.decimal
  rw [Nat.toString_eq_repr, Nat.toList_repr]

theorem file_nat_inj (name : Name) {a b : ℕ} (h : Spec.file name (Spec.decimal a) = Spec.file name (Spec.decimal b)) : a = b := by
  have h1 := file_inj name h
  rw [decimal_eq, decimal_eq] at h1
  rw [← Nat.ofDigitChars_ten_toDigits (n := a), h1, Nat.ofDigitChars_ten_toDigits]

theorem file_start_ne (name : Name) (a : ℕ) : Spec.file name Spec.start ≠ Spec.file name (Spec.decimal a) := by
  intro h
  have h1 := file_inj name h
  have h2 : 's' ∈ Nat.toDigits 10 a := by rw [← decimal_eq, ← h1]; simp [Spec.start]
  have := Nat.isDigit_of_mem_toDigits (by norm_num) (by norm_num) h2
  exact absurd this (by decide)

/-! ## Saving -/

theorem save_ok {L : Lib C PO} {w w' : World C PO} {t : Tb d n} {name s : Name} {u : Unit}
    (h : asymSave L w t (fileName name s) none = (w', .ok u)) :
    Spec.Holds L w' (Spec.file name s) t ∧ w'.options = w.options ∧ ∀ f, f ≠ Spec.file name s → w'.files f = w.files f := by
  have hf : Files.Spec.AsymFormat (fileName name s) none "json" :=
    Or.inr ⟨rfl, rfl, ends_iff.2 ⟨_, rfl⟩⟩
  have hs := (C114_save_only L w t (⟨.custom (fun _ _ => 0) (fun _ _ _ => 0) none, 0, [], none⟩ : BS.BSM d n) (fileName name s) none).1
  rw [h] at hs
  obtain ⟨h1, h2, -⟩ := hs
  refine ⟨?_, h2 rfl, fun f hne => h1 f (by rw [fileName_eq]; exact hne)⟩
  rw [asymSave_json L w t _ none hf] at h
  unfold jsonSave at h
  by_cases hw : L.canWrite (fileName name s) = true
  · rw [if_pos hw] at h
    simp only [List.map_map] at h
    cases hj : Fmt.save (List.map (List.ofFn ∘ Prod.fst) t.H.terms)
        (List.map ((fun (M : CMat n) i j => ((M i j).re, (M i j).im)) ∘ Prod.snd) t.H.terms) with
    | error e => rw [hj] at h; cases h
    | ok j =>
      rw [hj] at h
      obtain ⟨rfl, -⟩ := Prod.mk.inj h
      refine ⟨j, hj, ?_⟩
      show (World.setOptions (World.write _ _ _) _).files _ = _
      simp only [World.setOptions, World.write, fileName_eq, if_true]
  · rw [if_neg hw] at h
    cases h

theorem save_only {L : Lib C PO} {w : World C PO} {t : Tb d n} {name s : Name} {f : Name} (hne : f ≠ Spec.file name s) :
    (asymSave L w t (fileName name s) none).1.files f = w.files f :=
  (C114_save_only L w t (⟨.custom (fun _ _ => 0) (fun _ _ _ => 0) none, 0, [], none⟩ : BS.BSM d n) (fileName name s) none).1.1 f
    (by rw [fileName_eq]; exact hne)

/-! ## The repetitions and the loop -/

variable {o : Ops d n m} {L : Lib C PO} {name : Name} {src ks : List (RVec d)} {ref : List (Fin m → ℝ)} {b : Bool}

theorem fitOnce_keeps (ho : Spec.Keeps o) {nc i : ℕ} {t : Tb d n} {g : Logger ℝ} {r : Tb d n × Logger ℝ}
    (h : fitOnce o ks ref b nc i t g = .ok r) : Spec.nbrs r.1 = Spec.nbrs t := by
  unfold fitOnce at h
  cases hl : g.lastLoss with
  | error e => rw [hl] at h; cases h
  | ok l =>
    rw [hl] at h
    simp only [bind, Except.bind] at h
    cases hn : o.normalize (o.rand nc i (l * if b = true then 1 / 10 else 1 / 100) t) with
    | error e => rw [hn] at h; cases h
    | ok t' =>
      rw [hn] at h
      simp only at h
      rw [ho.cg _ _ _ _ _ _ r.1 r.2 h, ho.normalize _ _ hn, ho.rand]

theorem fits_only (nc : ℕ) (is : List ℕ) (w : World C PO) (t : Tb d n) (g : Logger ℝ) (f : Name) (hf : f ≠ Spec.file name (Spec.decimal nc)) :
    (fits o L name ks ref b nc is w t g).1.files f = w.files f := by
  induction is generalizing w t g with
  | nil => rfl
  | cons i is ih =>
    unfold fits
    split
    · rfl
    · rename_i r hr
      have hs := save_only (L := L) (w := w) (t := r.1) (name := name) (s := Spec.decimal nc) hf
      split
      · rename_i w' e hw
        rw [show (Nat.repr nc).toList = Spec.decimal nc from rfl] at hw
        rw [hw] at hs
        exact hs
      · rename_i w' u hw
        rw [show (Nat.repr nc).toList = Spec.decimal nc from rfl] at hw
        rw [hw] at hs
        rw [ih]
        exact hs

theorem fits_ok (nc : ℕ) (is : List ℕ) (w w' : World C PO) (t : Tb d n) (g : Logger ℝ) (r : Tb d n × Logger ℝ)
    (h : fits o L name ks ref b nc is w t g = (w', .ok r)) :
    (is ≠ [] → Spec.Holds L w' (Spec.file name (Spec.decimal nc)) r.1) ∧ w'.options = w.options ∧
      (Spec.Keeps o → Spec.nbrs r.1 = Spec.nbrs t) := by
  induction is generalizing w t g with
  | nil =>
    obtain ⟨rfl, h2⟩ := Prod.mk.inj h
    cases h2
    exact ⟨fun h => absurd rfl h, rfl, fun _ => rfl⟩
  | cons i is ih =>
    unfold fits at h
    split at h
    · cases h
    · rename_i r1 hr
      split at h
      · cases h
      · rename_i w1 u hw
        rw [show (Nat.repr nc).toList = Spec.decimal nc from rfl] at hw
        obtain ⟨h1, h2, h3⟩ := save_ok hw
        obtain ⟨i1, i2, i3⟩ := ih w1 r1.1 r1.2 h
        refine ⟨fun _ => ?_, i2.trans h2, fun ho => (i3 ho).trans (fitOnce_keeps ho hr)⟩
        cases is with
        | nil =>
          obtain ⟨rfl, h2⟩ := Prod.mk.inj h
          cases h2
          exact h1
        | cons a l => exact i1 (by simp)

theorem extend_grows {nc : ℕ} {t t' : Tb d n} (h : extend o src nc t = .ok t') (hne : t.H.terms ≠ []) :
    Spec.Grows o.complete src nc (Spec.nbrs t) (Spec.nbrs t') ∧ t'.H.terms ≠ [] := by
  unfold extend at h
  cases hr : src[nc]? with
  | none => rw [hr] at h; cases h
  | some r =>
    rw [hr] at h
    simp only [InitRef.fetch, bind, Except.bind] at h
    cases hc : o.complete [r] with
    | error e => rw [hc] at h; cases h
    | ok new =>
      rw [hc] at h
      simp only at h
      by_cases hl : ∃ x ∈ new, TB.Spec.Listed t.H x
      · rw [C24_add_listed t.H new hl] at h
        by_cases h1 : new.length = 1
        · rw [if_pos h1] at h
          simp only at h
          cases h
          obtain ⟨x, rfl⟩ := List.length_eq_one_iff.1 h1
          refine ⟨⟨r, [x], hr, hc, Or.inr ⟨⟨x, rfl, ?_⟩, rfl⟩⟩, hne⟩
          obtain ⟨y, hy, z, hz, hzy⟩ := hl
          rw [List.mem_singleton] at hy
          subst hy
          exact ⟨z.1, List.mem_map_of_mem hz, hzy⟩
        · rw [if_neg h1] at h
          cases h
      · push Not at hl
        obtain ⟨s', hs, ht, -⟩ := C24_add_new t.H hne new hl
        rw [hs] at h
        simp only at h
        cases h
        refine ⟨⟨r, new, hr, hc, Or.inl ⟨fun x hx y hy hxy => ?_, ?_⟩⟩, ?_⟩
        · obtain ⟨z, hz, rfl⟩ := List.mem_map.1 hy
          exact hl x hx ⟨z, hz, hxy⟩
        · simp only [Spec.nbrs, ht, List.map_append, List.map_map]
          congr 1
          conv_rhs => rw [← List.map_id new]
          rfl
        · simp only [ht]
          simp [hne]

theorem loop_only_false (k : ℕ) : ∀ (nc : ℕ) (w : World C PO) (t : Tb d n) (g : Logger ℝ) (f : Name), src.length - nc = k →
    (∀ c, nc < c → c ≤ src.length → f ≠ Spec.file name (Spec.decimal c)) →
    (loop o L name src ks ref b nc false w t g).1.files f = w.files f := by
  induction k with
  | zero =>
    intro nc w t g f hk _
    unfold loop
    rw [if_neg (by omega)]
  | succ k ih =>
    intro nc w t g f hk hf
    unfold loop
    rw [if_pos (by omega), if_neg (by simp)]
    split
    · rfl
    · rename_i t' _
      have h1 := fits_only (o := o) (L := L) (name := name) (ks := ks) (ref := ref) (b := b) (nc + 1) (List.range (if b = true then 10 else 1)) w t' g f
        (hf _ (by omega) (by omega))
      split
      · rename_i w' e hw
        rw [hw] at h1
        exact h1
      · rename_i w' r hw
        rw [hw] at h1
        rw [ih (nc + 1) w' r.1 r.2 f (by omega) fun c h2 h3 => hf c (by omega) h3]
        exact h1

theorem loop_only (nc : ℕ) (w : World C PO) (t : Tb d n) (g : Logger ℝ) (f : Name)
    (hf : nc < src.length → ∀ c, nc ≤ c → c ≤ src.length → f ≠ Spec.file name (Spec.decimal c)) :
    (loop o L name src ks ref b nc true w t g).1.files f = w.files f := by
  unfold loop
  by_cases h : nc < src.length
  · rw [if_pos h, if_pos rfl]
    have h1 := fits_only (o := o) (L := L) (name := name) (ks := ks) (ref := ref) (b := b) nc (List.range (if b = true then 10 else 1)) w t g f
        (hf h _ le_rfl h.le)
    split
    · rename_i w' e hw
      rw [hw] at h1
      exact h1
    · rename_i w' r hw
      rw [hw] at h1
      rw [loop_only_false _ nc w' r.1 r.2 f rfl fun c h2 h3 => hf h c h2.le h3]
      exact h1
  · rw [if_neg h]

theorem holds_congr {w w' : World C PO} {f : Name} {t : Tb d n} (h : w'.files f = w.files f) (hh : Spec.Holds L w f t) :
    Spec.Holds L w' f t := by
  obtain ⟨j, h1, h2⟩ := hh
  exact ⟨j, h1, h.trans h2⟩

theorem range_ne (b : Bool) : List.range (if b = true then 10 else 1) ≠ [] := by
  cases b <;> simp

theorem loop_ok_false (k : ℕ) : ∀ (nc : ℕ) (w w' : World C PO) (t t' : Tb d n) (g : Logger ℝ), src.length - nc = k → nc ≤ src.length →
    loop o L name src ks ref b nc false w t g = (w', .ok t') →
    ∃ T : ℕ → Tb d n, T nc = t ∧ T src.length = t' ∧ w'.options = w.options ∧
      (∀ c, nc < c → c ≤ src.length → Spec.Holds L w' (Spec.file name (Spec.decimal c)) (T c)) ∧
      (Spec.Keeps o → t.H.terms ≠ [] → ∀ c, nc ≤ c → c < src.length → Spec.Grows o.complete src c (Spec.nbrs (T c)) (Spec.nbrs (T (c + 1)))) := by
  induction k with
  | zero =>
    intro nc w w' t t' g hk hle h
    unfold loop at h
    rw [if_neg (by omega)] at h
    obtain ⟨rfl, h2⟩ := Prod.mk.inj h
    cases h2
    exact ⟨fun _ => t, rfl, rfl, rfl, fun c h1 h2 => absurd h2 (by omega), fun _ _ c h1 h2 => absurd h2 (by omega)⟩
  | succ k ih =>
    intro nc w w' t t' g hk hle h
    unfold loop at h
    rw [if_pos (by omega), if_neg (by simp)] at h
    split at h
    · cases h
    · rename_i t1 hext
      split at h
      · cases h
      · rename_i w1 r hw
        obtain ⟨f1, f2, f3⟩ := fits_ok _ _ _ _ _ _ _ hw
        obtain ⟨T, T1, T2, T3, T4, T5⟩ := ih (nc + 1) w1 w' r.1 t' r.2 (by omega) (by omega) h
        have hkeep : ∀ f, f = Spec.file name (Spec.decimal (nc + 1)) → w'.files f = w1.files f := by
          rintro f rfl
          have := loop_only_false (o := o) (L := L) (name := name) (src := src) (ks := ks) (ref := ref) (b := b) _ (nc + 1) w1 r.1 r.2
            (Spec.file name (Spec.decimal (nc + 1))) rfl (fun c h1 h2 he => by have := file_nat_inj name he; omega)
          rwa [h] at this
        refine ⟨fun c => if c = nc then t else T c, if_pos rfl, ?_, T3.trans f2, ?_, ?_⟩
        · beta_reduce
          rw [if_neg (by omega)]; exact T2
        · intro c h1 h2
          beta_reduce
          rw [if_neg (by omega)]
          by_cases hc : c = nc + 1
          · subst hc
            rw [T1]
            exact holds_congr (hkeep _ rfl) (f1 (range_ne b))
          · exact T4 c (by omega) h2
        · intro ho hne c h1 h2
          obtain ⟨g1, g2⟩ := extend_grows hext hne
          have hn1 := f3 ho
          beta_reduce
          by_cases hc : c = nc
          · subst hc
            rw [if_pos rfl, if_neg (by omega), T1, hn1]
            exact g1
          · rw [if_neg hc, if_neg (by omega)]
            refine T5 ho ?_ c (by omega) h2
            intro h0
            have : Spec.nbrs r.1 = [] := by rw [Spec.nbrs, h0]; rfl
            rw [hn1, Spec.nbrs, List.map_eq_nil_iff] at this
            exact g2 this

/-! ## The start -/

theorem bind_ok {α β ε : Type} {x : Except ε α} {f : α → Except ε β} {y : β} (h : (x >>= f) = .ok y) :
    ∃ a, x = .ok a ∧ f a = .ok y := by
  cases x with
  | error e => cases h
  | ok a => exact ⟨a, rfl, h⟩

theorem mkSeries_nbrs {N : List (RVec d)} {H : List (CMat n)} {s : Series d n} (h : mkSeries N H = .ok s) :
    s.terms.map Prod.fst = N ∧ s.terms ≠ [] := by
  unfold mkSeries at h
  cases N with
  | nil => cases h
  | cons r0 N =>
    simp only at h
    split_ifs at h with h1 h2
    · cases h
      rw [not_not] at h2
      refine ⟨List.map_fst_zip (by omega), ?_⟩
      cases H with
      | nil => simp at h2
      | cons a H => simp

theorem setFirst_nbrs {t t' : Tb d n} {row : Fin m → ℝ} (h : setFirst t row = .ok t') : Spec.nbrs t' = Spec.nbrs t := by
  unfold setFirst at h
  split at h
  · cases h
  · rename_i r X rest ht
    split_ifs at h
    · cases h
      simp [Spec.nbrs, ht]
    · cases h
      simp [Spec.nbrs, ht]

theorem startModel_nbrs (ho : Spec.Keeps o) {N : List (RVec d)} {c : ℕ} {t : Tb d n} (h : startModel o N ref c = .ok t) :
    Spec.nbrs t = N := by
  unfold startModel at h
  obtain ⟨H, h1, h⟩ := bind_ok h
  obtain ⟨t1, h2, h⟩ := bind_ok h
  obtain ⟨t2, h3, h⟩ := bind_ok h
  obtain ⟨row, h4, h⟩ := bind_ok h
  rw [setFirst_nbrs h, ho.normalize _ _ h3, ho.randStart]
  unfold mkTb at h2
  obtain ⟨S, -, h2⟩ := bind_ok h2
  cases h2
  exact (mkSeries_nbrs h1).1

theorem stages_nbrs (ho : Spec.Keeps o) (js : List ℕ) (t : Tb d n) (g : Logger ℝ) (r : Tb d n × Logger ℝ)
    (h : stages o ks ref js t g = .ok r) : Spec.nbrs r.1 = Spec.nbrs t := by
  induction js generalizing t g with
  | nil => cases h; rfl
  | cons j js ih =>
    unfold stages at h
    obtain ⟨r1, h1, h⟩ := bind_ok h
    rw [ih _ _ h, ho.cg _ _ _ _ _ _ r1.1 r1.2 h1]

theorem restart_nbrs (ho : Spec.Keeps o) {N : List (RVec d)} {c : ℕ} {r : Tb d n × ℝ} (h : restart o N ks ref c = .ok r) :
    Spec.nbrs r.1 = N := by
  unfold restart at h
  obtain ⟨t, h1, h⟩ := bind_ok h
  obtain ⟨r1, h2, h⟩ := bind_ok h
  obtain ⟨l, h3, h⟩ := bind_ok h
  cases h
  rw [stages_nbrs ho _ _ _ _ h2, startModel_nbrs ho h1]

/-- `best` is the first restart with the smallest loss among the restarts `cs`; `none` without restarts. -/
def Spec.Best (run : ℕ → Except Err (Tb d n × ℝ)) (cs : List ℕ) : Option (Tb d n × ℝ) → Prop
  | none => cs = []
  | some b => ∃ l₁ c l₂, cs = l₁ ++ c :: l₂ ∧ run c = .ok b ∧ (∀ c' ∈ l₁, ∃ r, run c' = .ok r ∧ b.2 < r.2) ∧
      ∀ c' ∈ l₂, ∃ r, run c' = .ok r ∧ b.2 ≤ r.2

theorem restartLoop_best (N : List (RVec d)) (cs : List ℕ) (done : List ℕ) (best res : Option (Tb d n × ℝ))
    (hd : Spec.Best (restart o N ks ref) done best) (h : restartLoop o N ks ref cs best = .ok res) :
    Spec.Best (restart o N ks ref) (done ++ cs) res := by
  induction cs generalizing done best with
  | nil =>
    unfold restartLoop at h
    cases h
    rw [List.append_nil]
    exact hd
  | cons c cs ih =>
    unfold restartLoop at h
    obtain ⟨r, h1, h⟩ := bind_ok h
    have := ih (done ++ [c]) (better best r) ?_ h
    · rw [List.append_assoc] at this
      exact this
    · cases best with
      | none =>
        change done = [] at hd
        subst hd
        exact ⟨[], c, [], rfl, h1, by simp, by simp⟩
      | some b =>
        obtain ⟨l₁, c0, l₂, e1, e2, e3, e4⟩ := hd
        unfold better
        by_cases hlt : r.2 < b.2
        · simp only [hlt, if_true]
          refine ⟨done, c, [], rfl, h1, ?_, by simp⟩
          intro c' hc'
          rw [e1, List.mem_append, List.mem_cons] at hc'
          rcases hc' with hc' | rfl | hc'
          · obtain ⟨r', a1, a2⟩ := e3 c' hc'
            exact ⟨r', a1, hlt.trans a2⟩
          · exact ⟨b, e2, hlt⟩
          · obtain ⟨r', a1, a2⟩ := e4 c' hc'
            exact ⟨r', a1, hlt.trans_le a2⟩
        · simp only [hlt, if_false]
          refine ⟨l₁, c0, l₂ ++ [c], by rw [e1]; simp, e2, e3, ?_⟩
          intro c' hc'
          rw [List.mem_append, List.mem_singleton] at hc'
          rcases hc' with hc' | rfl
          · exact e4 c' hc'
          · exact ⟨r, h1, not_lt.1 hlt⟩

theorem prepare_eq {start restarts : ℕ} {p : List (RVec d) × List (Fin m → ℝ) × Option (Tb d n × ℝ)}
    (h : prepare o src ks ref start restarts = .ok p) :
    gather ks (o.order ks) = .ok p.1 ∧ gather ref (o.order ks) = .ok p.2.1 ∧
      ∃ N, o.complete (src.take (start + 1)) = .ok N ∧ restartLoop o N p.1 p.2.1 (List.range restarts) none = .ok p.2.2 := by
  unfold prepare at h
  obtain ⟨ks', h1, h⟩ := bind_ok h
  obtain ⟨ref', h2, h⟩ := bind_ok h
  obtain ⟨N, h3, h⟩ := bind_ok h
  obtain ⟨best, h4, h⟩ := bind_ok h
  cases h
  exact ⟨h1, h2, N, h3, h4⟩

/-! ## Theorems -/

variable {w w' : World C PO} {start below above : ℤ} {randomize : Bool} {restarts : ℕ}

/-- **C116.** `autofit_asym` writes only the files `asym_{name}_start.json` and, if there are more than `start_neighbors_count + 1` source
neighbours, `asym_{name}_{c}.json` for `c` from `start_neighbors_count + 1` to their number, whether it returns or raises. -/
theorem C116_only_files (L : Lib C PO) (w : World C PO) (name : Name) (src ks : List (RVec d)) (ref : List (Fin m → ℝ))
    (start below above : ℤ) (o : Ops d (below.toNat + m + above.toNat) m) (randomize : Bool) (restarts : ℕ) (f : Name)
    (hf : ¬ Spec.Checkpoint name start.toNat src.length f) :
    (autofit L w name src ks ref start below above o randomize restarts).1.files f = w.files f := by
  have h1 : f ≠ Spec.file name Spec.start := fun h => hf (Or.inl h)
  unfold autofit
  split_ifs
  swap
  · rfl
  · split
    · rfl
    · unfold afterStart
      split
      · rfl
      · rename_i p hp b hb
        have hs := save_only (L := L) (w := w) (t := b.1) h1
        rw [show (['s', 't', 'a', 'r', 't'] : List Char) = Spec.start from rfl]
        split
        · rename_i w' e hw
          rw [hw] at hs
          exact hs
        · rename_i w' u hw
          rw [hw] at hs
          split
          · exact hs
          · split
            · exact hs
            · rw [loop_only]
              · exact hs
              · exact fun hlt c hc1 hc2 he => hf (Or.inr ⟨hlt, c, hc1, hc2, he⟩)

/-- **C116.** If `autofit_asym` returns, the file `asym_{name}_start.json` holds the start model.  If all source neighbours were used for
it the start model is returned.  Otherwise there is a model for each number `c` of neighbours from `start_neighbors_count + 1`, held by
the file with this number, and the returned model is the last one.  The start model has the positions completed from the first
`start_neighbors_count + 1` source neighbours, and the positions grow by the star of one source neighbour at a time.  The print
options are unchanged. -/
theorem C116_checkpoints (L : Lib C PO) (w w' : World C PO) (name : Name) (src ks : List (RVec d)) (ref : List (Fin m → ℝ))
    (start below above : ℤ) (o : Ops d (below.toNat + m + above.toNat) m) (randomize : Bool) (restarts : ℕ)
    (t : Tb d (below.toNat + m + above.toNat))
    (h : autofit L w name src ks ref start below above o randomize restarts = (w', .ok t)) :
    w'.options = w.options ∧ ∃ t0, Spec.Holds L w' (Spec.file name Spec.start) t0 ∧
      (Spec.Keeps o → o.complete (src.take (start.toNat + 1)) = .ok (Spec.nbrs t0)) ∧
      (src.length ≤ start.toNat + 1 → t = t0) ∧
      (start.toNat + 1 < src.length → ∃ T : ℕ → Tb d (below.toNat + m + above.toNat), T src.length = t ∧
        (∀ c, start.toNat + 1 ≤ c → c ≤ src.length → Spec.Holds L w' (Spec.file name (Spec.decimal c)) (T c)) ∧
        (Spec.Keeps o → Spec.nbrs (T (start.toNat + 1)) = Spec.nbrs t0 ∧
          ∀ c, start.toNat + 1 ≤ c → c < src.length → Spec.Grows o.complete src c (Spec.nbrs (T c)) (Spec.nbrs (T (c + 1))))) := by
  unfold autofit at h
  split_ifs at h
  swap
  · cases h
  · split at h
    · cases h
    · rename_i p hp
      obtain ⟨ks', ref', best⟩ := p
      obtain ⟨-, -, N, hN, hloop⟩ := prepare_eq hp
      simp only at hloop h
      unfold afterStart at h
      split at h
      · cases h
      · rename_i b
        have hbest := restartLoop_best N _ [] none (some b) rfl hloop
        rw [List.nil_append] at hbest
        obtain ⟨l₁, c, l₂, -, hc, -⟩ := hbest
        rw [show (['s', 't', 'a', 'r', 't'] : List Char) = Spec.start from rfl] at h
        split at h
        · cases h
        · rename_i w1 u hw
          obtain ⟨s1, s2, s3⟩ := save_ok hw
          split at h
          · cases h
          · split at h
            · cases h
            · rename_i g v hg
              have hkeep := loop_only (o := o) (L := L) (name := name) (src := src) (ks := ks') (ref := ref') (b := randomize)
                (start.toNat + 1) w1 b.1 g (Spec.file name Spec.start) (fun _ c _ _ => file_start_ne name c)
              rw [h] at hkeep
              refine ⟨?_, b.1, holds_congr hkeep s1, fun ho => by rw [restart_nbrs ho hc, hN], ?_, ?_⟩
              · rw [← s2]
                unfold loop at h
                by_cases hlt : start.toNat + 1 < src.length
                · rw [if_pos hlt, if_pos rfl] at h
                  split at h
                  · cases h
                  · rename_i w2 r hw2
                    obtain ⟨T, -, -, T3, -⟩ := loop_ok_false _ _ _ _ _ _ _ rfl hlt.le h
                    exact T3.trans (fits_ok _ _ _ _ _ _ _ hw2).2.1
                · rw [if_neg hlt] at h
                  obtain ⟨rfl, -⟩ := Prod.mk.inj h
                  rfl
              · intro hle
                unfold loop at h
                rw [if_neg (by omega)] at h
                obtain ⟨-, h2⟩ := Prod.mk.inj h
                cases h2
                rfl
              · intro hlt
                unfold loop at h
                rw [if_pos hlt, if_pos rfl] at h
                split at h
                · cases h
                · rename_i w2 r hw2
                  obtain ⟨f1, f2, f3⟩ := fits_ok _ _ _ _ _ _ _ hw2
                  obtain ⟨T, T1, T2, T3, T4, T5⟩ := loop_ok_false _ _ _ _ _ _ _ rfl hlt.le h
                  have hk := loop_only_false (o := o) (L := L) (name := name) (src := src) (ks := ks') (ref := ref') (b := randomize) _
                    (start.toNat + 1) w2 r.1 r.2 (Spec.file name (Spec.decimal (start.toNat + 1))) rfl
                    (fun c h1 h2 he => by have := file_nat_inj name he; omega)
                  rw [h] at hk
                  refine ⟨T, T2, ?_, ?_⟩
                  · intro c h1 h2
                    by_cases hc : c = start.toNat + 1
                    · subst hc
                      rw [T1]
                      exact holds_congr hk (f1 (range_ne _))
                    · exact T4 c (by omega) h2
                  · intro ho
                    have hnb := f3 ho
                    refine ⟨by rw [T1, hnb], T5 ho ?_⟩
                    intro h0
                    have h2 : Spec.nbrs r.1 = [] := by rw [Spec.nbrs, h0]; rfl
                    rw [hnb, restart_nbrs ho hc] at h2
                    subst h2
                    unfold restart startModel at hc
                    obtain ⟨_, hc, -⟩ := bind_ok hc
                    obtain ⟨_, hc, -⟩ := bind_ok hc
                    cases hc

/-- **C116 (defect)** A source neighbour whose star has two or more positions (up to sign), one of which belongs to the start set, is not
skipped: no call returns. -/
theorem C116_duplicate (L : Lib C PO) (w : World C PO) (name : Name) (src ks : List (RVec d)) (ref : List (Fin m → ℝ))
    (start below above : ℤ) (o : Ops d (below.toNat + m + above.toNat) m) (ho : Spec.Keeps o) (randomize : Bool) (restarts : ℕ)
    (N : List (RVec d)) (hN : o.complete (src.take (start.toNat + 1)) = .ok N) (c : ℕ) (hc : start.toNat + 1 ≤ c) (r : RVec d)
    (hr : src[c]? = some r) (star : List (RVec d)) (hstar : o.complete [r] = .ok star) (h2 : 2 ≤ star.length) (x : RVec d)
    (hx : x ∈ star) (hxN : x ∈ N) :
    ∃ e, (autofit L w name src ks ref start below above o randomize restarts).2 = .error e := by
  cases ha : (autofit L w name src ks ref start below above o randomize restarts).2 with
  | error e => exact ⟨e, rfl⟩
  | ok t =>
    exfalso
    obtain ⟨-, t0, -, h1, -, h3⟩ := C116_checkpoints L w _ name src ks ref start below above o randomize restarts t (Prod.ext rfl ha)
    have hcl : c < src.length := (List.getElem?_eq_some_iff.1 hr).1
    obtain ⟨T, -, -, h4⟩ := h3 (by omega)
    obtain ⟨h5, h6⟩ := h4 ho
    have hN0 : Spec.nbrs t0 = N := Except.ok.inj ((h1 ho).symm.trans hN)
    have hall : ∀ k, start.toNat + 1 + k ≤ c → x ∈ Spec.nbrs (T (start.toNat + 1 + k)) := by
      intro k
      induction k with
      | zero => intro _; rw [Nat.add_zero, h5, hN0]; exact hxN
      | succ k ih =>
        intro hk
        obtain ⟨r', new, -, -, h7⟩ := h6 (start.toNat + 1 + k) (by omega) (by omega)
        have := ih (by omega)
        rw [show start.toNat + 1 + (k + 1) = start.toNat + 1 + k + 1 by omega]
        rcases h7 with ⟨-, h8⟩ | ⟨-, h8⟩
        · rw [h8]; exact List.mem_append_left _ this
        · rw [h8]; exact this
    have hxc := hall (c - (start.toNat + 1)) (by omega)
    rw [show start.toNat + 1 + (c - (start.toNat + 1)) = c by omega] at hxc
    obtain ⟨r', new, h7, h8, h9⟩ := h6 c hc hcl
    rw [hr] at h7
    cases h7
    rw [hstar] at h8
    cases h8
    rcases h9 with ⟨h9, -⟩ | ⟨⟨y, hy, -⟩, -⟩
    · refine h9 x hx x hxc ?_
      rw [sub_self, vnorm_eq_zero.2 rfl]
      norm_num
    · rw [hy] at h2
      simp at h2

/-- **C116.** The start model is the first one with the smallest last loss among the restarts. -/
theorem C116_best (o : Ops d n m) (src ks : List (RVec d)) (ref : List (Fin m → ℝ)) (start restarts : ℕ)
    (ks' : List (RVec d)) (ref' : List (Fin m → ℝ)) (best : Option (Tb d n × ℝ))
    (h : prepare o src ks ref start restarts = .ok (ks', ref', best)) :
    ∃ N, o.complete (src.take (start + 1)) = .ok N ∧ Spec.Best (restart o N ks' ref') (List.range restarts) best := by
  obtain ⟨-, -, N, hN, hl⟩ := prepare_eq h
  exact ⟨N, hN, restartLoop_best N (List.range restarts) [] none best rfl hl⟩

theorem gather_ok {α : Type} (l : List α) (idx : List ℕ) (h : ∀ i ∈ idx, i < l.length) (a : α) :
    gather l idx = .ok (idx.map fun i => l.getD i a) := by
  unfold gather
  induction idx with
  | nil => rfl
  | cons i idx ih =>
    have hi := h i (by simp)
    rw [List.mapM_cons, List.getElem?_eq_getElem hi, ih fun j hj => h j (by simp [hj])]
    simp [InitRef.fetch, bind, Except.bind, pure, Except.pure, List.getD, hi]

/-- **C116.** The samples and their bands are put into the order of the distance to zero; with this order each of the ten stages `j` of a
restart uses the `⌈j N / 10⌉` samples nearest to zero, which are all of them at the last stage, and never none. -/
theorem C116_samples (o : Ops d n m) (ks : List (RVec d)) (ref : List (Fin m → ℝ)) (ho : Spec.Argsort ks (o.order ks))
    (hlen : ref.length = ks.length) :
    ∃ ks' ref', gather ks (o.order ks) = .ok ks' ∧ gather ref (o.order ks) = .ok ref' ∧ ks'.length = ks.length ∧ ref'.length = ks.length ∧
      (ks'.zip ref').Perm (ks.zip ref) ∧ ks'.Pairwise (fun a b => vnorm a ≤ vnorm b) ∧
      ∀ j, 1 ≤ j → j ≤ 10 → (∀ x ∈ ks'.take (chunk ks'.length j), ∀ y ∈ ks'.drop (chunk ks'.length j), vnorm x ≤ vnorm y) ∧
        (j * ks.length ≤ 10 * chunk ks'.length j ∧ 10 * chunk ks'.length j < j * ks.length + 10) ∧
        chunk ks'.length 10 = ks.length ∧ (ks ≠ [] → 1 ≤ chunk ks'.length j) := by
  have hmem : ∀ i ∈ o.order ks, i < ks.length := fun i hi => List.mem_range.1 (ho.perm.mem_iff.1 hi)
  have hl : (o.order ks).length = ks.length := by rw [ho.perm.length_eq, List.length_range]
  have hs : ((o.order ks).map fun i => ks.getD i 0).Pairwise (fun a b => vnorm a ≤ vnorm b) := by
    rw [List.pairwise_map]
    have := ho.sorted
    rw [List.pairwise_map] at this
    exact this
  refine ⟨_, _, gather_ok ks _ hmem 0, gather_ok ref _ (fun i hi => by rw [hlen]; exact hmem i hi) 0, by simp [hl], by simp [hl], ?_, hs, ?_⟩
  · have hz : (((o.order ks).map fun i => ks.getD i 0).zip ((o.order ks).map fun i => ref.getD i 0)) =
        (o.order ks).map fun i => (ks.getD i 0, ref.getD i 0) := by
      rw [List.zip_map']
    have hr : ks.zip ref = (List.range ks.length).map fun i => (ks.getD i 0, ref.getD i 0) := by
      refine List.ext_getElem (by simp [hlen]) fun i h1 h2 => ?_
      have : i < ks.length := by simpa using h2
      simp [List.getD, this, hlen]
    rw [hz, hr]
    exact ho.perm.map _
  · intro j h1 h2
    refine ⟨?_, ?_, ?_, ?_⟩
    · intro x hx y hy
      have := hs
      rw [← List.take_append_drop (chunk ((o.order ks).map fun i => ks.getD i 0).length j) ((o.order ks).map fun i => ks.getD i 0),
        List.pairwise_append] at this
      exact this.2.2 x hx y hy
    · rw [List.length_map, hl]
      unfold chunk
      omega
    · rw [List.length_map, hl]
      unfold chunk
      omega
    · intro hne
      rw [List.length_map, hl]
      have := List.length_pos_iff.2 hne
      have h3 : ks.length ≤ j * ks.length := Nat.le_mul_of_pos_left _ h1
      unfold chunk
      omega

/-- **C116.** Negative arguments raise `AssertionError`; without restarts the call raises `AssertionError` (if the samples can be sorted and
the neighbours completed).  No file is written. -/
theorem C116_assertions (L : Lib C PO) (w : World C PO) (name : Name) (src ks : List (RVec d)) (ref : List (Fin m → ℝ))
    (start below above : ℤ) (o : Ops d (below.toNat + m + above.toNat) m) (randomize : Bool) (restarts : ℕ) :
    (start < 0 ∨ below < 0 ∨ above < 0 → autofit L w name src ks ref start below above o randomize restarts = (w, .error (.py .assertionError))) ∧
    (restarts = 0 → Spec.Argsort ks (o.order ks) → ref.length = ks.length → (∃ N, o.complete (src.take (start.toNat + 1)) = .ok N) →
      autofit L w name src ks ref start below above o randomize restarts = (w, .error (.py .assertionError))) := by
  constructor
  · intro h
    unfold autofit
    rw [if_pos (by omega)]
    rfl
  · rintro rfl ho hlen ⟨N, hN⟩
    unfold autofit
    by_cases hneg : ¬ (0 ≤ below ∧ 0 ≤ above ∧ 0 ≤ start)
    · rw [if_pos hneg]
      rfl
    · rw [if_neg hneg]
      obtain ⟨ks', ref', h1, h2, -⟩ := C116_samples o ks ref ho hlen
      have : prepare o src ks ref start.toNat 0 = .ok (ks', ref', none) := by
        unfold prepare
        rw [h1, h2, hN]
        rfl
      rw [this]
      rfl

theorem loop_error {N : List (RVec d)} {e : Err} {c : ℕ} {cs : List ℕ} (h : restart o N ks ref c = .error e) (best) :
    restartLoop o N ks ref (c :: cs) best = .error e := by
  unfold restartLoop
  rw [h]
  rfl

/-- What `np.diag(ref_bands[0])` is compared with: the model of a restart before the fits has the reference bands of the first sample on the
diagonal of the first matrix if no bands are added.  With added bands, one reference band fills the whole matrix, and more than one raises
`ValueError`. -/
theorem C116_start_matrix (t : Tb d n) (r : RVec d) (X : CMat n) (rest : List (RVec d × CMat n)) (ht : t.H.terms = (r, X) :: rest)
    (row : Fin m → ℝ) :
    (∀ h : m = n, setFirst t row = .ok ⟨⟨(r, diagonal fun i => (row (Fin.cast h.symm i) : ℂ)) :: rest⟩, t.S⟩) ∧
    (m ≠ n → ∀ h : m = 1, setFirst t row = .ok ⟨⟨(r, Matrix.of fun _ _ => (row (Fin.cast h.symm 0) : ℂ)) :: rest⟩, t.S⟩) ∧
    (m ≠ n → m ≠ 1 → setFirst t row = .error .valueError) := by
  unfold setFirst
  rw [ht]
  refine ⟨fun h => ?_, fun h1 h => ?_, fun h1 h => ?_⟩
  · simp only [h, dif_pos]
  · subst h
    simp only [h1, dif_neg, not_false_eq_true, dif_pos]
  · simp only [h1, h, dif_neg, not_false_eq_true]

/-- **C116 (defect)** `add_bands_below` and `add_bands_above` cannot be used: with two or more reference bands the first restart raises
`ValueError`, because `np.diag(ref_bands[0])` does not have the shape of the matrix of the larger model.  No file is written. -/
theorem C116_added_bands (L : Lib C PO) (w : World C PO) (name : Name) (src ks : List (RVec d)) (ref : List (Fin m → ℝ))
    (start below above : ℤ) (o : Ops d (below.toNat + m + above.toNat) m) (ho : Spec.Keeps o) (randomize : Bool) (restarts : ℕ)
    (hr : 0 < restarts) (hs : 0 ≤ start) (hb : 0 ≤ below) (ha : 0 ≤ above) (hadd : 0 < below + above) (hm : 2 ≤ m)
    (hsort : Spec.Argsort ks (o.order ks)) (hlen : ref.length = ks.length) (hne : ks ≠ []) (rest : List (RVec d))
    (hN : o.complete (src.take (start.toNat + 1)) = .ok (0 :: rest)) (hnorm : ∀ t, ∃ t', o.normalize t = .ok t') :
    autofit L w name src ks ref start below above o randomize restarts = (w, .error (.py .valueError)) := by
  obtain ⟨ks', ref', h1, h2, h3, h4, -⟩ := C116_samples o ks ref hsort hlen
  obtain ⟨row, rows, rfl⟩ : ∃ row rows, ref' = row :: rows := by
    cases ref' with
    | nil => exact absurd h4 (by simpa using (List.length_pos_iff.2 hne).ne)
    | cons a l => exact ⟨a, l, rfl⟩
  have hstart : startModel o (0 :: rest) (row :: rows) 0 = .error .valueError := by
    obtain ⟨H, hH⟩ : ∃ H : Series d (below.toNat + m + above.toNat), mkSeries (0 :: rest) ((0 :: rest).map fun _ => 0) = .ok H := by
      unfold mkSeries
      simp only
      rw [if_neg (by rw [not_not, vnorm_eq_zero]), if_neg (by simp)]
      exact ⟨_, rfl⟩
    obtain ⟨t, ht⟩ : ∃ t, mkTb H = .ok t := by
      unfold mkTb Series.unitMatrix
      simp only [mkSeries, List.length_singleton]
      rw [if_neg (by rw [not_not, vnorm_eq_zero]), if_neg (by simp)]
      exact ⟨_, rfl⟩
    obtain ⟨t', ht'⟩ := hnorm (o.randStart 0 t)
    have hnb : Spec.nbrs t' = 0 :: rest := by
      rw [ho.normalize _ _ ht', ho.randStart]
      unfold mkTb at ht
      obtain ⟨S, -, ht⟩ := bind_ok ht
      cases ht
      exact (mkSeries_nbrs hH).1
    obtain ⟨y, ys, hy⟩ : ∃ y ys, t'.H.terms = y :: ys := by
      cases h0 : t'.H.terms with
      | nil => rw [Spec.nbrs, h0] at hnb; cases hnb
      | cons y ys => exact ⟨y, ys, rfl⟩
    unfold startModel
    rw [hH]
    show (mkTb H >>= _) = _
    rw [ht]
    show (o.normalize (o.randStart 0 t) >>= _) = _
    rw [ht']
    show setFirst t' row = _
    exact (C116_start_matrix t' y.1 y.2 ys hy row).2.2 (by omega) (by omega)
  unfold autofit
  rw [if_neg (by omega)]
  have hp : prepare o src ks ref start.toNat restarts = .error .valueError := by
    unfold prepare
    rw [h1, h2, hN]
    show (restartLoop o (0 :: rest) ks' (row :: rows) (List.range restarts) none >>= _) = _
    obtain ⟨k, rfl⟩ : ∃ k, restarts = k + 1 := ⟨restarts - 1, by omega⟩
    rw [List.range_succ_eq_map, loop_error (e := .valueError)]
    · rfl
    · unfold restart
      rw [hstart]
      rfl
  rw [hp]
  rfl

/-- **C116 (defect)** A start model that fits all samples exactly makes the call fail: the logger cannot print an error of zero and raises
`ValueError`; only the start file is written. -/
theorem C116_exact_fit (L : Lib C PO) (w w' : World C PO) (name : Name) (src ks : List (RVec d)) (ref : List (Fin m → ℝ))
    (start below above : ℤ) (o : Ops d (below.toNat + m + above.toNat) m) (randomize : Bool) (restarts : ℕ)
    (hs : 0 ≤ start) (hb : 0 ≤ below) (ha : 0 ≤ above) (ks' : List (RVec d)) (ref' : List (Fin m → ℝ))
    (t : Tb d (below.toNat + m + above.toNat)) (l : ℝ)
    (hp : prepare o src ks ref start.toNat restarts = .ok (ks', ref', some (t, l)))
    (hsave : asymSave L w t (Spec.file name Spec.start) none = (w', .ok ())) (l' : ℝ) (err : List ℝ)
    (herr : o.error t ks' ref' = .ok (l', err)) (hz : ∀ x ∈ err, x = 0) :
    autofit L w name src ks ref start below above o randomize restarts = (w', .error (.py .valueError)) := by
  have hlog : ∃ g, (Logger.new true false true).addData 0 l' err = (g, .error Err.valueError) := by
    unfold Logger.addData
    simp only [Logger.new, if_true]
    have : errorVis err = .error .valueError := by
      cases err with
      | nil => rfl
      | cons e es =>
        have hmax : ∀ es : List ℝ, (∀ x ∈ es, x = 0) → es.foldl max 0 = 0 := by
          intro es
          induction es with
          | nil => intro _; rfl
          | cons a as ih =>
            intro h
            rw [List.foldl_cons, h a (by simp), max_self]
            exact ih fun x hx => h x (by simp [hx])
        unfold errorVis
        simp only
        rw [hz e (by simp), hmax es fun x hx => hz x (by simp [hx]), if_pos rfl]
    rw [this]
    exact ⟨_, rfl⟩
  obtain ⟨g, hg⟩ := hlog
  unfold autofit
  rw [if_neg (by omega), hp]
  simp only [afterStart]
  rw [show (['s', 't', 'a', 'r', 't'] : List Char) = Spec.start from rfl, fileName_eq, hsave]
  simp only
  rw [herr]
  simp only
  rw [hg]
  rfl

/-! ## The calls that are made -/

/-- Restart `c` ends with the model `t` and the loss `l`: start with zero matrices at the positions `N` and unit overlap, randomise, normalise, set
the first matrix from the bands of the first sample, then ten fits with one iteration and at most ten steps of the linear solver, the `j`-th with
the first `⌈j len / 10⌉` samples. -/
def Spec.Restart (o : Ops d n m) (N ks : List (RVec d)) (ref : List (Fin m → ℝ)) (c : ℕ) (t : Tb d n) (l : ℝ) : Prop :=
  ∃ row t1 r X rest, ref.head? = some row ∧ o.normalize (o.randStart c ⟨⟨N.map fun r => (r, 0)⟩, ⟨[(0, 1)]⟩⟩) = .ok t1 ∧
    t1.H.terms = (r, X) :: rest ∧
    ∃ T : ℕ → Tb d n × Logger ℝ, (T 0).1.S = t1.S ∧ (∃ Y, (T 0).1.H.terms = (r, Y) :: rest ∧
      ∀ h : m = n, Y = diagonal fun i => (row (Fin.cast h.symm i) : ℂ)) ∧ (T 0).2.loss = [] ∧
      (∀ j < 10, ∃ p, (j + 1) * ks.length ≤ 10 * p ∧ 10 * p < (j + 1) * ks.length + 10 ∧
        o.cg (ks.take p) (ref.take p) 1 10 (T j).1 (T j).2 = .ok (T (j + 1))) ∧ (T 10).1 = t ∧ (T 10).2.loss.getLast? = some l

/-- `k` repetitions for `c` neighbours: randomise with the last loss times `s`, normalise, fit all samples with 100 iterations and at most five
steps of the linear solver. -/
def Spec.Fit (o : Ops d n m) (ks : List (RVec d)) (ref : List (Fin m → ℝ)) (s : ℝ) (c k : ℕ) (a b : Tb d n × Logger ℝ) : Prop :=
  ∃ T : ℕ → Tb d n × Logger ℝ, T 0 = a ∧ T k = b ∧ ∀ i < k, ∃ l t, (T i).2.loss.getLast? = some l ∧
    o.normalize (o.rand c i (l * s) (T i).1) = .ok t ∧ o.cg ks ref 100 5 t (T i).2 = .ok (T (i + 1))

theorem stages_chain (a k : ℕ) (t : Tb d n) (g : Logger ℝ) (r : Tb d n × Logger ℝ) (h : stages o ks ref (List.range' (a + 1) k) t g = .ok r) :
    ∃ T : ℕ → Tb d n × Logger ℝ, T a = (t, g) ∧ T (a + k) = r ∧ ∀ j, a ≤ j → j < a + k → ∃ p, (j + 1) * ks.length ≤ 10 * p ∧
      10 * p < (j + 1) * ks.length + 10 ∧ o.cg (ks.take p) (ref.take p) 1 10 (T j).1 (T j).2 = .ok (T (j + 1)) := by
  induction k generalizing a t g with
  | zero =>
    cases h
    exact ⟨fun _ => (t, g), rfl, rfl, fun j h1 h2 => by omega⟩
  | succ k ih =>
    rw [List.range'_succ] at h
    unfold stages at h
    obtain ⟨r1, h1, h⟩ := bind_ok h
    obtain ⟨T, e1, e2, e3⟩ := ih (a + 1) _ _ h
    refine ⟨fun j => if j = a then (t, g) else T j, if_pos rfl, ?_, ?_⟩
    · beta_reduce
      rw [if_neg (by omega), ← e2]
      congr 1
      omega
    · intro j h2 h3
      beta_reduce
      by_cases hj : j = a
      · subst hj
        rw [if_pos rfl, if_neg (by omega), e1]
        refine ⟨chunk ks.length (j + 1), ?_, ?_, h1⟩ <;> unfold chunk <;> omega
      · rw [if_neg hj, if_neg (by omega)]
        exact e3 j (by omega) (by omega)

theorem lastLoss_eq {g : Logger ℝ} {l : ℝ} (h : g.lastLoss = .ok l) : g.loss.getLast? = some l := by
  unfold Logger.lastLoss at h
  cases hg : g.loss.getLast? with
  | none => rw [hg] at h; cases h
  | some x => rw [hg] at h; cases h; rfl

theorem zip_zero (N : List (RVec d)) : N.zip (N.map fun _ => (0 : CMat n)) = N.map fun r => (r, 0) := by
  induction N with
  | nil => rfl
  | cons r N ih => rw [List.map_cons, List.zip_cons_cons, ih, List.map_cons]

theorem restart_spec {N : List (RVec d)} {c : ℕ} {r : Tb d n × ℝ} (h : restart o N ks ref c = .ok r) : Spec.Restart o N ks ref c r.1 r.2 := by
  unfold restart at h
  obtain ⟨t, h1, h⟩ := bind_ok h
  obtain ⟨r1, h2, h⟩ := bind_ok h
  obtain ⟨l, h3, h⟩ := bind_ok h
  cases h
  unfold startModel at h1
  obtain ⟨H, a1, h1⟩ := bind_ok h1
  obtain ⟨t0, a2, h1⟩ := bind_ok h1
  obtain ⟨t1, a3, h1⟩ := bind_ok h1
  obtain ⟨row, a4, h1⟩ := bind_ok h1
  have hH : H = ⟨N.map fun r => (r, 0)⟩ := by
    unfold mkSeries at a1
    cases N with
    | nil => cases a1
    | cons r0 N =>
      simp only at a1
      split_ifs at a1
      cases a1
      congr 1
      exact zip_zero _
  have ht0 : t0 = ⟨⟨N.map fun r => (r, 0)⟩, ⟨[(0, 1)]⟩⟩ := by
    unfold mkTb Series.unitMatrix mkSeries at a2
    simp only [List.length_singleton] at a2
    rw [if_neg (by rw [not_not, vnorm_eq_zero]), if_neg (by simp)] at a2
    cases a2
    rw [hH]
    rfl
  rw [ht0] at a3
  have hrow : ref.head? = some row := by
    cases ref with
    | nil => cases a4
    | cons x xs => cases a4; rfl
  obtain ⟨T, e1, e2, e3⟩ := stages_chain 0 10 t _ r1 h2
  unfold setFirst at h1
  split at h1
  · cases h1
  · rename_i r X rest hterms
    refine ⟨row, t1, r, X, rest, hrow, a3, hterms, T, ?_, ?_, ?_, fun j hj => e3 j (Nat.zero_le _) (by omega), ?_, ?_⟩
    · rw [e1]
      split_ifs at h1 <;> cases h1 <;> rfl
    · rw [e1]
      split_ifs at h1 with c1 c2
      · cases h1
        exact ⟨_, rfl, fun _ => rfl⟩
      · cases h1
        exact ⟨_, rfl, fun h => absurd h c1⟩
    · rw [e1]
      rfl
    · rw [show (10 : ℕ) = 0 + 10 from rfl, e2]
    · rw [show (10 : ℕ) = 0 + 10 from rfl, e2]
      exact lastLoss_eq h3

theorem fits_fit (a k nc : ℕ) (w w' : World C PO) (t : Tb d n) (g : Logger ℝ) (r : Tb d n × Logger ℝ)
    (h : fits o L name ks ref b nc (List.range' a k) w t g = (w', .ok r)) :
    ∃ T : ℕ → Tb d n × Logger ℝ, T a = (t, g) ∧ T (a + k) = r ∧ ∀ i, a ≤ i → i < a + k → ∃ l t, (T i).2.loss.getLast? = some l ∧
      o.normalize (o.rand nc i (l * if b then 1 / 10 else 1 / 100) (T i).1) = .ok t ∧ o.cg ks ref 100 5 t (T i).2 = .ok (T (i + 1)) := by
  induction k generalizing a t g w with
  | zero =>
    cases h
    exact ⟨fun _ => (t, g), rfl, rfl, fun j h1 h2 => by omega⟩
  | succ k ih =>
    rw [List.range'_succ] at h
    unfold fits at h
    split at h
    · cases h
    · rename_i r1 h1
      split at h
      · cases h
      · obtain ⟨T, e1, e2, e3⟩ := ih (a + 1) _ _ _ h
        refine ⟨fun j => if j = a then (t, g) else T j, if_pos rfl, ?_, ?_⟩
        · beta_reduce
          rw [if_neg (by omega), ← e2]
          congr 1
          omega
        · intro j h2 h3
          beta_reduce
          by_cases hj : j = a
          · subst hj
            rw [if_pos rfl, if_neg (show ¬ (j + 1 = j) by omega), e1]
            unfold fitOnce at h1
            obtain ⟨l, b1, h1⟩ := bind_ok h1
            obtain ⟨t1, b2, h1⟩ := bind_ok h1
            exact ⟨l, t1, lastLoss_eq b1, b2, h1⟩
          · rw [if_neg hj, if_neg (show ¬ (j + 1 = a) by omega)]
            exact e3 j (by omega) (by omega)

theorem fits_spec {nc : ℕ} {w w' : World C PO} {t : Tb d n} {g : Logger ℝ} {r : Tb d n × Logger ℝ}
    (h : fits o L name ks ref b nc (List.range (if b = true then 10 else 1)) w t g = (w', .ok r)) :
    Spec.Fit o ks ref (if b then 1 / 10 else 1 / 100) nc (if b then 10 else 1) (t, g) r := by
  rw [List.range_eq_range'] at h
  obtain ⟨T, e1, e2, e3⟩ := fits_fit 0 _ nc w w' t g r h
  rw [Nat.zero_add] at e2
  exact ⟨T, e1, e2, fun i hi => e3 i (Nat.zero_le _) (by omega)⟩

/-- The star of `src[c]` is added to the Hamiltonian with `add_neighbors` (C24), the overlap is kept. -/
def Spec.Added (complete : List (RVec d) → Except Err (List (RVec d))) (src : List (RVec d)) (c : ℕ) (t t' : Tb d n) : Prop :=
  ∃ r star u, src[c]? = some r ∧ complete [r] = .ok star ∧ t.H.addNeighbors star = (t'.H, .ok u) ∧ t'.S = t.S

theorem loop_protocol (k : ℕ) : ∀ (nc : ℕ) (w w' : World C PO) (t t' : Tb d n) (g : Logger ℝ), src.length - nc = k → nc ≤ src.length →
    loop o L name src ks ref b nc false w t g = (w', .ok t') →
    ∃ M : ℕ → Tb d n × Logger ℝ, M nc = (t, g) ∧ (M src.length).1 = t' ∧ ∀ c, nc ≤ c → c < src.length → ∃ t'',
      Spec.Added o.complete src c (M c).1 t'' ∧
      Spec.Fit o ks ref (if b then 1 / 10 else 1 / 100) (c + 1) (if b then 10 else 1) (t'', (M c).2) (M (c + 1)) := by
  induction k with
  | zero =>
    intro nc w w' t t' g hk hle h
    unfold loop at h
    rw [if_neg (by omega)] at h
    cases h
    exact ⟨fun _ => (t, g), rfl, rfl, fun c h1 h2 => by omega⟩
  | succ k ih =>
    intro nc w w' t t' g hk hle h
    unfold loop at h
    rw [if_pos (by omega), if_neg (by simp)] at h
    split at h
    · cases h
    · rename_i t1 hext
      split at h
      · cases h
      · rename_i w1 r hw
        obtain ⟨M, m1, m2, m3⟩ := ih (nc + 1) w1 w' r.1 t' r.2 (by omega) (by omega) h
        refine ⟨fun c => if c = nc then (t, g) else M c, if_pos rfl, ?_, ?_⟩
        · beta_reduce
          rw [if_neg (by omega)]; exact m2
        · intro c h1 h2
          beta_reduce
          by_cases hc : c = nc
          · subst hc
            rw [if_pos rfl, if_neg (show ¬ (c + 1 = c) by omega), m1]
            refine ⟨t1, ?_, fits_spec hw⟩
            unfold extend at hext
            obtain ⟨x, x1, hext⟩ := bind_ok hext
            obtain ⟨star, x2, hext⟩ := bind_ok hext
            have x1' : src[c]? = some x := by
              cases hs : src[c]? with
              | none => rw [hs] at x1; cases x1
              | some y => rw [hs] at x1; cases x1; rfl
            split at hext
            · cases hext
            · rename_i H u hu
              cases hext
              exact ⟨x, star, u, x1', x2, hu, rfl⟩
          · rw [if_neg hc, if_neg (show ¬ (c + 1 = nc) by omega)]
            exact m3 c (by omega) h2

/-- **C116.** The calls made by a run that returns: all restarts follow `Spec.Restart`, the first one with the least last loss is taken; then the
logger starts with the loss of this model on all samples; for `start_neighbors_count + 1` neighbours and for every further one there
are ten repetitions with a tenth of the last loss (one with a hundredth without `randomize`). -/
theorem C116_protocol (L : Lib C PO) (w w' : World C PO) (name : Name) (src ks : List (RVec d)) (ref : List (Fin m → ℝ))
    (start below above : ℤ) (o : Ops d (below.toNat + m + above.toNat) m) (randomize : Bool) (restarts : ℕ)
    (hsort : Spec.Argsort ks (o.order ks)) (hlen : ref.length = ks.length)
    (t : Tb d (below.toNat + m + above.toNat))
    (h : autofit L w name src ks ref start below above o randomize restarts = (w', .ok t)) :
    ∃ ks' ref' N t0 c0 l0 g0 l err, (ks'.zip ref').Perm (ks.zip ref) ∧ ks'.length = ks.length ∧ ref'.length = ks.length ∧
      ks'.Pairwise (fun a b => vnorm a ≤ vnorm b) ∧ o.complete (src.take (start.toNat + 1)) = .ok N ∧
      c0 < restarts ∧ Spec.Restart o N ks' ref' c0 t0 l0 ∧
      (∀ c < restarts, ∃ t1 l1, Spec.Restart o N ks' ref' c t1 l1 ∧ l0 ≤ l1 ∧ (c < c0 → l0 < l1)) ∧
      o.error t0 ks' ref' = .ok (l, err) ∧ g0.loss = [l] ∧
      (src.length ≤ start.toNat + 1 → t = t0) ∧
      (start.toNat + 1 < src.length → ∃ M : ℕ → Tb d (below.toNat + m + above.toNat) × Logger ℝ, (M src.length).1 = t ∧
        Spec.Fit o ks' ref' (if randomize then 1 / 10 else 1 / 100) (start.toNat + 1) (if randomize then 10 else 1) (t0, g0) (M (start.toNat + 1)) ∧
        ∀ c, start.toNat + 1 ≤ c → c < src.length → ∃ t'', Spec.Added o.complete src c (M c).1 t'' ∧
          Spec.Fit o ks' ref' (if randomize then 1 / 10 else 1 / 100) (c + 1) (if randomize then 10 else 1) (t'', (M c).2) (M (c + 1))) := by
  obtain ⟨ks₁, ref₁, g1, g2, g3, g4, g5, g6, -⟩ := C116_samples o ks ref hsort hlen
  unfold autofit at h
  split_ifs at h
  swap
  · cases h
  · split at h
    · cases h
    · rename_i p hp
      obtain ⟨ks', ref', best⟩ := p
      obtain ⟨q1, q2, N, hN, hloop⟩ := prepare_eq hp
      simp only at hloop h q1 q2
      obtain rfl : ks₁ = ks' := by rw [g1] at q1; exact Except.ok.inj q1
      obtain rfl : ref₁ = ref' := by rw [g2] at q2; exact Except.ok.inj q2
      unfold afterStart at h
      split at h
      · cases h
      · rename_i b
        have hbest := restartLoop_best N _ [] none (some b) rfl hloop
        rw [List.nil_append] at hbest
        obtain ⟨l₁, c, l₂, b1, b2, b3, b4⟩ := hbest
        have hc0 : l₁.length = c := by
          have : (List.range restarts)[l₁.length]? = some c := by rw [b1]; simp
          rw [List.getElem?_eq_some_iff] at this
          obtain ⟨_, h2⟩ := this
          simpa using h2
        have hcr : c < restarts := List.mem_range.1 (by rw [b1]; simp)
        split at h
        · cases h
        · split at h
          · cases h
          · rename_i le hle
            split at h
            · cases h
            · rename_i w1 u hw _ g v hg
              refine ⟨ks₁, ref₁, N, b.1, c, b.2, g, le.1, le.2, g5, g3, g4, g6, hN, hcr, restart_spec b2, ?_, hle, ?_, ?_, ?_⟩
              · intro c' hc'
                have hm : c' ∈ l₁ ++ c :: l₂ := by rw [← b1]; exact List.mem_range.2 hc'
                rcases List.mem_append.1 hm with hm | hm
                · obtain ⟨r, r1, r2⟩ := b3 c' hm
                  exact ⟨r.1, r.2, restart_spec r1, r2.le, fun _ => r2⟩
                · have hnot : ¬ c' < c := by
                    have hp : (List.range restarts).Pairwise (· < ·) := List.pairwise_lt_range
                    rw [b1, List.pairwise_append] at hp
                    rcases List.mem_cons.1 hm with rfl | hm
                    · omega
                    · have := (List.pairwise_cons.1 hp.2.1).1 c' hm
                      omega
                  rcases List.mem_cons.1 hm with rfl | hm
                  · exact ⟨b.1, b.2, restart_spec b2, le_rfl, fun h => absurd h hnot⟩
                  · obtain ⟨r, r1, r2⟩ := b4 c' hm
                    exact ⟨r.1, r.2, restart_spec r1, r2, fun h => absurd h hnot⟩
              · unfold Logger.addData at hg
                simp only [Logger.new, if_true] at hg
                split at hg <;> cases hg
                rfl
              · intro hle'
                unfold loop at h
                rw [if_neg (by omega)] at h
                cases h
                rfl
              · intro hlt
                unfold loop at h
                rw [if_pos hlt, if_pos rfl] at h
                split at h
                · cases h
                · rename_i w2 r hw2
                  obtain ⟨M, m1, m2, m3⟩ := loop_protocol _ _ _ _ _ _ _ rfl hlt.le h
                  exact ⟨M, m2, by rw [m1]; exact fits_spec hw2, m3⟩

/-! ## When the call returns -/

/-- Normalising and fitting do not raise, and a fit logs a loss. -/
structure Spec.Fits (o : Ops d n m) : Prop extends Spec.Keeps o where
  norm : ∀ t, ∃ t', o.normalize t = .ok t'
  fit : ∀ ks ref a b t g, ∃ t' g', o.cg ks ref a b t g = .ok (t', g') ∧ g'.loss ≠ []

/-- All called functions work, and the error is not zero. -/
structure Spec.Works (o : Ops d n m) : Prop extends Spec.Fits o where
  err : ∀ t ks ref, ∃ l err, o.error t ks ref = .ok (l, err) ∧ ∃ x ∈ err, 0 < x

theorem lastLoss_ok {g : Logger ℝ} (h : g.loss ≠ []) : ∃ l, g.lastLoss = .ok l := by
  unfold Logger.lastLoss
  rw [List.getLast?_eq_some_getLast h]
  exact ⟨_, rfl⟩

theorem nbrs_ne {t t' : Tb d n} (h : Spec.nbrs t' = Spec.nbrs t) (ht : t.H.terms ≠ []) : t'.H.terms ≠ [] := by
  intro h0
  rw [Spec.nbrs, h0, Spec.nbrs] at h
  exact ht (List.map_eq_nil_iff.1 h.symm)

theorem fitOnce_returns (hw : Spec.Works o) (nc i : ℕ) (t : Tb d n) (g : Logger ℝ) (hg : g.loss ≠ []) :
    ∃ r, fitOnce o ks ref b nc i t g = .ok r ∧ r.2.loss ≠ [] := by
  obtain ⟨l, hl⟩ := lastLoss_ok hg
  obtain ⟨t1, h1⟩ := hw.norm (o.rand nc i (l * if b = true then 1 / 10 else 1 / 100) t)
  obtain ⟨t2, g2, h2, h3⟩ := hw.fit ks ref 100 5 t1 g
  refine ⟨(t2, g2), ?_, h3⟩
  unfold fitOnce
  rw [hl]
  show (o.normalize _ >>= _) = _
  rw [h1]
  exact h2

theorem save_returns (hL : ∀ f, L.canWrite f = true) (w : World C PO) (t : Tb d n) (ht : t.H.terms ≠ []) (s : Name) :
    ∃ w', asymSave L w t (fileName name s) none = (w', .ok ()) := by
  have hf : Files.Spec.AsymFormat (fileName name s) none "json" := Or.inr ⟨rfl, rfl, ends_iff.2 ⟨_, rfl⟩⟩
  exact ⟨_, Prod.ext rfl ((C114_asym_save_failure L w t (fileName name s) none hf).2.2 (hL _) ht)⟩

theorem fits_returns (hw : Spec.Works o) (hL : ∀ f, L.canWrite f = true) (nc : ℕ) (is : List ℕ) (w : World C PO) (t : Tb d n)
    (ht : t.H.terms ≠ []) (g : Logger ℝ) (hg : g.loss ≠ []) :
    ∃ w' r, fits o L name ks ref b nc is w t g = (w', .ok r) ∧ r.2.loss ≠ [] := by
  induction is generalizing w t g with
  | nil => exact ⟨w, (t, g), rfl, hg⟩
  | cons i is ih =>
    obtain ⟨r, h1, h2⟩ := fitOnce_returns (ks := ks) (ref := ref) (b := b) hw nc i t g hg
    have hr := nbrs_ne (fitOnce_keeps hw.toKeeps h1) ht
    obtain ⟨w1, h3⟩ := save_returns (name := name) hL w r.1 hr (Nat.repr nc).toList
    obtain ⟨w', r', h4, h5⟩ := ih w1 r.1 hr r.2 h2
    refine ⟨w', r', ?_, h5⟩
    unfold fits
    rw [h1]
    simp only
    rw [h3]
    exact h4

/-- The stars of the source neighbours `start+1, …` exist and are apart from each other and from the start set `N`. -/
structure Spec.Apart (complete : List (RVec d) → Except Err (List (RVec d))) (src N : List (RVec d)) (start : ℕ) (star : ℕ → List (RVec d)) :
    Prop where
  eq : ∀ c r, src[c]? = some r → complete [r] = .ok (star c)
  apart : ∀ c, start + 1 ≤ c → c < src.length → ∀ x ∈ star c, (∀ y ∈ N, ¬ vnorm (y - x) < 1e-5) ∧
    ∀ c', start + 1 ≤ c' → c' < c → ∀ y ∈ star c', ¬ vnorm (y - x) < 1e-5

theorem extend_returns {N : List (RVec d)} {start : ℕ} {star : ℕ → List (RVec d)} (ha : Spec.Apart o.complete src N start star) (nc : ℕ)
    (h1 : start + 1 ≤ nc) (h2 : nc < src.length) (t : Tb d n) (ht : t.H.terms ≠ [])
    (hsub : ∀ x ∈ Spec.nbrs t, x ∈ N ∨ ∃ c, start + 1 ≤ c ∧ c < nc ∧ x ∈ star c) :
    ∃ t', extend o src nc t = .ok t' ∧ t'.H.terms ≠ [] ∧
      ∀ x ∈ Spec.nbrs t', x ∈ N ∨ ∃ c, start + 1 ≤ c ∧ c < nc + 1 ∧ x ∈ star c := by
  have hs : src[nc]? = some src[nc] := List.getElem?_eq_getElem h2
  have hc := ha.eq nc _ hs
  have hnew : ∀ x ∈ star nc, ¬ TB.Spec.Listed t.H x := by
    rintro x hx ⟨y, hy, hyx⟩
    rcases hsub y.1 (List.mem_map_of_mem hy) with h | ⟨c, h3, h4, h5⟩
    · exact (ha.apart nc h1 h2 x hx).1 _ h hyx
    · exact (ha.apart nc h1 h2 x hx).2 c h3 h4 _ h5 hyx
  obtain ⟨s', e1, e2, -⟩ := C24_add_new t.H ht (star nc) hnew
  refine ⟨⟨s', t.S⟩, ?_, by simp [e2, ht], ?_⟩
  · unfold extend
    rw [hs]
    show (o.complete [src[nc]] >>= _) = _
    rw [hc]
    simp only [bind, Except.bind]
    rw [e1]
  · intro x hx
    simp only [Spec.nbrs, e2, List.map_append, List.map_map, List.mem_append] at hx
    rcases hx with hx | hx
    · rcases hsub x hx with h | ⟨c, h3, h4, h5⟩
      · exact Or.inl h
      · exact Or.inr ⟨c, h3, by omega, h5⟩
    · obtain ⟨y, hy, rfl⟩ := List.mem_map.1 hx
      exact Or.inr ⟨nc, h1, by omega, hy⟩

theorem loop_returns_false (hw : Spec.Works o) (hL : ∀ f, L.canWrite f = true) {N : List (RVec d)} {start : ℕ} {star : ℕ → List (RVec d)}
    (ha : Spec.Apart o.complete src N start star) (k : ℕ) : ∀ (nc : ℕ) (w : World C PO) (t : Tb d n) (g : Logger ℝ), src.length - nc = k →
    start + 1 ≤ nc → t.H.terms ≠ [] → g.loss ≠ [] → (∀ x ∈ Spec.nbrs t, x ∈ N ∨ ∃ c, start + 1 ≤ c ∧ c < nc ∧ x ∈ star c) →
    ∃ w' t', loop o L name src ks ref b nc false w t g = (w', .ok t') := by
  induction k with
  | zero =>
    intro nc w t g hk _ _ _ _
    unfold loop
    rw [if_neg (by omega)]
    exact ⟨w, t, rfl⟩
  | succ k ih =>
    intro nc w t g hk h1 ht hg hsub
    obtain ⟨t1, e1, e2, e3⟩ := extend_returns ha nc h1 (by omega) t ht hsub
    obtain ⟨w1, r, f1, f2⟩ := fits_returns (name := name) (ks := ks) (ref := ref) (b := b) hw hL (nc + 1) (List.range (if b = true then 10 else 1)) w t1 e2 g hg
    have hnb := (fits_ok _ _ _ _ _ _ _ f1).2.2 hw.toKeeps
    obtain ⟨w', t', h⟩ := ih (nc + 1) w1 r.1 r.2 (by omega) (by omega) (nbrs_ne hnb e2) f2 (by rw [hnb]; exact e3)
    refine ⟨w', t', ?_⟩
    unfold loop
    rw [if_pos (by omega), if_neg (by simp), e1]
    simp only
    rw [f1]
    exact h

theorem stages_returns (hw : Spec.Fits o) (js : List ℕ) (t : Tb d n) (g : Logger ℝ) (h : js ≠ [] ∨ g.loss ≠ []) :
    ∃ r, stages o ks ref js t g = .ok r ∧ r.2.loss ≠ [] := by
  induction js generalizing t g with
  | nil => exact ⟨(t, g), rfl, h.resolve_left (by simp)⟩
  | cons j js ih =>
    obtain ⟨t1, g1, h1, h2⟩ := hw.fit (ks.take (chunk ks.length j)) (ref.take (chunk ks.length j)) 1 10 t g
    obtain ⟨r, h3, h4⟩ := ih t1 g1 (Or.inr h2)
    refine ⟨r, ?_, h4⟩
    unfold stages
    rw [h1]
    exact h3

/-- The restarts return. -/
theorem prepare_returns (src ks : List (RVec d))
    (ref : List (Fin m → ℝ)) (start : ℕ) (o : Ops d ((0 : ℤ).toNat + m + (0 : ℤ).toNat) m) (hw : Spec.Fits o)
    (restarts : ℕ) (hr : 0 < restarts) (hsort : Spec.Argsort ks (o.order ks)) (hlen : ref.length = ks.length) (hne : ks ≠ [])
    (rest : List (RVec d)) (hN : o.complete (src.take (start + 1)) = .ok (0 :: rest)) :
    ∃ ks' ref' p, prepare o src ks ref start restarts = .ok (ks', ref', some p) ∧ Spec.nbrs p.1 = 0 :: rest := by
  obtain ⟨ks', ref', h1, h2, h3, h4, -⟩ := C116_samples o ks ref hsort hlen
  obtain ⟨row, rows, rfl⟩ : ∃ row rows, ref' = row :: rows := by
    cases ref' with
    | nil => exact absurd h4 (by simpa using (List.length_pos_iff.2 hne).ne)
    | cons a l => exact ⟨a, l, rfl⟩
  have hstart : ∀ c, ∃ r, restart o (0 :: rest) ks' (row :: rows) c = .ok r := by
    intro c
    obtain ⟨H, hH⟩ : ∃ H : Series d ((0 : ℤ).toNat + m + (0 : ℤ).toNat), mkSeries (0 :: rest) ((0 :: rest).map fun _ => 0) = .ok H := by
      unfold mkSeries
      simp only
      rw [if_neg (by rw [not_not, vnorm_eq_zero]), if_neg (by simp)]
      exact ⟨_, rfl⟩
    obtain ⟨t, ht⟩ : ∃ t, mkTb H = .ok t := by
      unfold mkTb Series.unitMatrix
      simp only [mkSeries, List.length_singleton]
      rw [if_neg (by rw [not_not, vnorm_eq_zero]), if_neg (by simp)]
      exact ⟨_, rfl⟩
    obtain ⟨t', ht'⟩ := hw.norm (o.randStart c t)
    have hnb : Spec.nbrs t' = 0 :: rest := by
      rw [hw.normalize _ _ ht', hw.randStart]
      unfold mkTb at ht
      obtain ⟨S, -, ht⟩ := bind_ok ht
      cases ht
      exact (mkSeries_nbrs hH).1
    obtain ⟨y, ys, hy⟩ : ∃ y ys, t'.H.terms = y :: ys := by
      cases h0 : t'.H.terms with
      | nil => rw [Spec.nbrs, h0] at hnb; cases hnb
      | cons y ys => exact ⟨y, ys, rfl⟩
    have hsm : ∃ t'', startModel o (0 :: rest) (row :: rows) c = .ok t'' := by
      unfold startModel
      rw [hH]
      show ∃ t'', (mkTb H >>= _) = _
      rw [ht]
      show ∃ t'', (o.normalize (o.randStart c t) >>= _) = _
      rw [ht']
      exact ⟨_, (C116_start_matrix t' y.1 y.2 ys hy row).1 (by simp)⟩
    obtain ⟨t'', hsm⟩ := hsm
    obtain ⟨r, hst, hl⟩ := stages_returns (ks := ks') (ref := row :: rows) hw (List.range' 1 10) t'' (Logger.new true false true) (Or.inl (by decide))
    obtain ⟨l, hll⟩ := lastLoss_ok hl
    refine ⟨(r.1, l), ?_⟩
    unfold restart
    rw [hsm]
    show (stages o ks' (row :: rows) (List.range' 1 10) t'' _ >>= _) = _
    rw [hst]
    show (r.2.lastLoss >>= _) = _
    rw [hll]
    rfl
  have hloop : ∀ (cs : List ℕ) (best : Option (Tb d ((0 : ℤ).toNat + m + (0 : ℤ).toNat) × ℝ)),
      ∃ res, restartLoop o (0 :: rest) ks' (row :: rows) cs best = .ok res := by
    intro cs
    induction cs with
    | nil => exact fun best => ⟨best, rfl⟩
    | cons c cs ih =>
      intro best
      obtain ⟨r, hr⟩ := hstart c
      obtain ⟨res, hres⟩ := ih (better best r)
      refine ⟨res, ?_⟩
      unfold restartLoop
      rw [hr]
      exact hres
  obtain ⟨res, hres⟩ := hloop (List.range restarts) none
  have hbest := restartLoop_best (o := o) (0 :: rest) (List.range restarts) [] none res rfl hres
  rw [List.nil_append] at hbest
  cases res with
  | none =>
    have : List.range restarts = [] := hbest
    rw [List.range_eq_nil] at this
    omega
  | some p =>
    obtain ⟨l₁, c, l₂, -, hc, -⟩ := hbest
    refine ⟨ks', row :: rows, p, ?_, restart_nbrs hw.toKeeps hc⟩
    unfold prepare
    rw [h1, h2, hN]
    show (restartLoop o (0 :: rest) ks' (row :: rows) (List.range restarts) none >>= _) = _
    rw [hres]
    rfl

/-- **C116.** Without added bands, if the called functions work, there is at least one sample and one restart, the completed start set begins
with zero and the stars of the further neighbours are apart, the call returns. -/
theorem C116_returns (L : Lib C PO) (hL : ∀ f, L.canWrite f = true) (w : World C PO) (name : Name) (src ks : List (RVec d))
    (ref : List (Fin m → ℝ)) (start : ℤ) (hs : 0 ≤ start) (o : Ops d ((0 : ℤ).toNat + m + (0 : ℤ).toNat) m) (hw : Spec.Works o)
    (randomize : Bool) (restarts : ℕ) (hr : 0 < restarts) (hsort : Spec.Argsort ks (o.order ks)) (hlen : ref.length = ks.length) (hne : ks ≠ [])
    (rest : List (RVec d)) (hN : o.complete (src.take (start.toNat + 1)) = .ok (0 :: rest)) (star : ℕ → List (RVec d))
    (ha : Spec.Apart o.complete src (0 :: rest) start.toNat star) :
    ∃ w' t, autofit L w name src ks ref start 0 0 o randomize restarts = (w', .ok t) := by
  obtain ⟨ks', ref', p, hp, hnb⟩ := prepare_returns src ks ref start.toNat o hw.toFits restarts hr hsort hlen hne rest hN
  have hterms : p.1.H.terms ≠ [] := by
    intro h0
    rw [Spec.nbrs, h0] at hnb
    cases hnb
  obtain ⟨w1, hsv⟩ := save_returns (name := name) hL w p.1 hterms Spec.start
  obtain ⟨l, err, he, x, hx, hx0⟩ := hw.err p.1 ks' (ref')
  have hlog : ∃ g v, (Logger.new true false true).addData 0 l err = (g, .ok v) ∧ g.loss ≠ [] := by
    unfold Logger.addData
    simp only [Logger.new, if_true]
    have : ∃ v, errorVis err = .ok v := by
      cases err with
      | nil => simp at hx
      | cons e es =>
        unfold errorVis
        simp only
        rw [if_neg]
        · exact ⟨_, rfl⟩
        · intro h0
          have hmax : ∀ (es : List ℝ) (a : ℝ), a ≤ es.foldl max a ∧ ∀ y ∈ es, y ≤ es.foldl max a := by
            intro es
            induction es with
            | nil => intro a; simp
            | cons z zs ih =>
              intro a
              rw [List.foldl_cons]
              obtain ⟨i1, i2⟩ := ih (max a z)
              refine ⟨(le_max_left _ _).trans i1, ?_⟩
              intro y hy
              rcases List.mem_cons.1 hy with rfl | hy
              · exact (le_max_right _ _).trans i1
              · exact i2 y hy
          have := hmax es e
          rw [h0] at this
          rcases List.mem_cons.1 hx with rfl | hx
          · linarith [this.1]
          · linarith [this.2 x hx]
    obtain ⟨v, hv⟩ := this
    rw [hv]
    exact ⟨_, _, rfl, by simp⟩
  obtain ⟨g, v, hg, hgl⟩ := hlog
  have hfin : ∃ w' t, loop o L name src ks' (ref') randomize (start.toNat + 1) true w1 p.1 g = (w', .ok t) := by
    by_cases hlt : start.toNat + 1 < src.length
    · obtain ⟨w2, r, f1, f2⟩ := fits_returns (name := name) (ks := ks') (ref := ref') (b := randomize) hw hL (start.toNat + 1)
        (List.range (if randomize = true then 10 else 1)) w1 p.1 hterms g hgl
      have hnb2 := (fits_ok _ _ _ _ _ _ _ f1).2.2 hw.toKeeps
      obtain ⟨w', t', h⟩ := loop_returns_false (name := name) (ks := ks') (ref := ref') (b := randomize) hw hL ha _ (start.toNat + 1) w2 r.1 r.2 rfl
        le_rfl (nbrs_ne hnb2 hterms) f2 (by rw [hnb2, hnb]; exact fun x hx => Or.inl hx)
      refine ⟨w', t', ?_⟩
      unfold loop
      rw [if_pos hlt, if_pos rfl, f1]
      exact h
    · refine ⟨w1, p.1, ?_⟩
      unfold loop
      rw [if_neg hlt]
  obtain ⟨w', t, hfin⟩ := hfin
  refine ⟨w', t, ?_⟩
  unfold autofit
  rw [if_neg (by omega), hp]
  simp only [afterStart]
  rw [show (['s', 't', 'a', 'r', 't'] : List Char) = Spec.start from rfl, hsv]
  simp only
  rw [he]
  simp only
  rw [hg]
  exact hfin

/-! ## Examples -/

/-- Functions for the examples: the trivial group, a fit that changes nothing and logs the loss 1, the error `e`. -/
noncomputable def exOps (n m : ℕ) (e : ℝ) : Ops 1 n m where
  complete := .ok
  order ks := List.range ks.length
  randStart _ t := t
  rand _ _ _ t := t
  normalize := .ok
  cg _ _ _ _ t g := .ok (t, { g with loss := g.loss ++ [1] })
  error _ _ _ := .ok (1, [e])

theorem exOps_keeps (n m : ℕ) (e : ℝ) : Spec.Keeps (exOps n m e) where
  randStart _ _ := rfl
  rand _ _ _ _ := rfl
  normalize _ _ h := by cases h; rfl
  cg _ _ _ _ _ _ _ _ h := by cases h; rfl

theorem exOps_fits (n m : ℕ) (e : ℝ) : Spec.Fits (exOps n m e) where
  toKeeps := exOps_keeps n m e
  norm t := ⟨t, rfl⟩
  fit _ _ _ _ t g := ⟨t, _, rfl, by simp⟩

theorem exOps_works (n m : ℕ) : Spec.Works (exOps n m 1) where
  toFits := exOps_fits n m 1
  err _ _ _ := ⟨1, [1], rfl, 1, by simp, one_pos⟩

/-- The library of `Props/Files.lean` where all files can be written. -/
noncomputable def exAll : Lib ExFile ℕ := { exLib with canWrite := fun _ => true }

theorem exSort (n m : ℕ) (e : ℝ) : Spec.Argsort [(0 : RVec 1), 1] ((exOps n m e).order [0, 1]) where
  perm := List.Perm.refl _
  sorted := by
    simp [exOps, List.range_succ, vnorm]

/-- Neighbours 0, 1, 2 on a line. -/
def exSrc : List (RVec 1) := [0, 1, 2]

theorem exApart (n m : ℕ) (e : ℝ) : Spec.Apart (exOps n m e).complete exSrc [0] 0 (fun c => [exSrc.getD c 0]) where
  eq c r h := by simp [exOps, h]
  apart c h1 h2 x hx := by
    have e1 : vnorm (0 - 1 : RVec 1) = 1 := by simp [vnorm]
    have e2 : vnorm (0 - 2 : RVec 1) = 2 := by simp [vnorm]
    have e3 : vnorm (1 - 2 : RVec 1) = 1 := by
      rw [show (1 - 2 : RVec 1) = -1 by norm_num]
      simp [vnorm]
    have hc : c = 1 ∨ c = 2 := by simp [exSrc] at h2; omega
    rcases hc with rfl | rfl
    · rw [List.mem_singleton] at hx
      have hx : x = 1 := hx
      subst hx
      refine ⟨?_, fun c' h3 h4 => by omega⟩
      intro y hy
      rw [List.mem_singleton] at hy
      rw [hy, e1]
      norm_num
    · rw [List.mem_singleton] at hx
      have hx : x = 2 := hx
      subst hx
      refine ⟨?_, fun c' h3 h4 y hy => ?_⟩
      · intro y hy
        rw [List.mem_singleton] at hy
        rw [hy, e2]
        norm_num
      · obtain rfl : c' = 1 := by omega
        rw [List.mem_singleton] at hy
        have hy : y = 1 := hy
        rw [hy, e3]
        norm_num

/-- The bands of the example: two samples, two bands. -/
def exRef : List (Fin 2 → ℝ) := [fun _ => 1, fun _ => 2]

/-- `C116_returns`: neighbours 0, 1, 2, two samples, three restarts. -/
theorem exReturns : ∃ w' t, autofit exAll ⟨fun _ => none, 7⟩ exName exSrc [0, 1] exRef 0 0 0 (exOps 2 2 1) true 3 = (w', .ok t) :=
  C116_returns exAll (fun _ => rfl) ⟨fun _ => none, 7⟩ exName exSrc [0, 1] exRef 0 le_rfl (exOps 2 2 1) (exOps_works 2 2) true 3
    (by norm_num) (exSort 2 2 1) rfl (by simp) [] rfl _ (exApart 2 2 1)

/-- `C116_checkpoints`: the files "start", "1", "2" and "3" exist afterwards. -/
example : ∃ w' t, autofit exAll ⟨fun _ => none, 7⟩ exName exSrc [0, 1] exRef 0 0 0 (exOps 2 2 1) true 3 = (w', .ok t) ∧
    w'.files (Spec.file exName ['3']) ≠ none ∧ w'.options = 7 := by
  obtain ⟨w', t, h⟩ := exReturns
  obtain ⟨h1, t0, -, -, -, h2⟩ := C116_checkpoints _ _ _ _ _ _ _ _ _ _ _ _ _ _ h
  obtain ⟨T, -, h3, -⟩ := h2 (by decide)
  obtain ⟨j, -, hj⟩ := h3 3 (by decide) (by decide)
  refine ⟨w', t, h, ?_, h1⟩
  rw [show (['3'] : List Char) = Spec.decimal 3 from by simp [Spec.decimal]; decide, hj]
  simp

/-- `C116_protocol` applies to the example. -/
example : ∃ N ks' ref' c0 t0 l0, c0 < 3 ∧ Spec.Restart (exOps 2 2 1) N ks' ref' c0 t0 l0 := by
  obtain ⟨w', t, h⟩ := exReturns
  obtain ⟨ks', ref', N, t0, c0, l0, g0, l, err, -, -, -, -, -, h0, h1, -⟩ :=
    C116_protocol exAll ⟨fun _ => none, 7⟩ w' exName exSrc [0, 1] exRef 0 0 0 (exOps 2 2 1) true 3 (exSort 2 2 1) rfl t h
  exact ⟨N, ks', ref', c0, t0, l0, h0, h1⟩

/-- `C116_only_files`: another file. -/
example : (autofit exAll ⟨fun _ => some .empty, 7⟩ exName exSrc [0, 1] exRef 0 0 0 (exOps 2 2 1) true 3).1.files ['x'] = some .empty :=
  C116_only_files exAll _ exName exSrc [0, 1] exRef 0 0 0 (exOps 2 2 1) true 3 ['x'] (by
    rintro (h | ⟨-, c, -, -, h⟩) <;> exact absurd (congrArg List.head? h) (by simp [Spec.file]))

/-- `C116_duplicate`: inversion symmetry on a line; the star `{1, -1}` of the third neighbour is already there. -/
example (w : World ExFile ℕ) : ∃ e, (autofit exAll w exName [0, 1, 1] [0, 1] exRef 1 0 0
    { exOps 2 2 1 with complete := fun l => .ok (if l.length = 1 then [1, -1] else [0, 1, -1]) } true 3).2 = .error e :=
  C116_duplicate exAll w exName [0, 1, 1] [0, 1] exRef 1 0 0
    { exOps 2 2 1 with complete := fun l => .ok (if l.length = 1 then [1, -1] else [0, 1, -1]) }
    ⟨fun _ _ => rfl, fun _ _ _ _ => rfl, (exOps_keeps 2 2 1).normalize, (exOps_keeps 2 2 1).cg⟩ true 3 [0, 1, -1] rfl 2 (by decide) 1 rfl
    [1, -1] rfl (by decide) 1 (by simp) (by simp)

/-- `C116_samples` and `C116_best`: the hypotheses hold for the example. -/
example := C116_samples (exOps 2 2 1) [0, 1] exRef (exSort 2 2 1) rfl

/-- `C116_assertions`: a negative start, and no restart. -/
example (w : World ExFile ℕ) : autofit exAll w exName exSrc [0, 1] exRef (-1) 0 0 (exOps 2 2 1) true 3 = (w, .error (.py .assertionError)) :=
  (C116_assertions exAll w exName exSrc [0, 1] exRef (-1) 0 0 (exOps 2 2 1) true 3).1 (by decide)
example (w : World ExFile ℕ) : autofit exAll w exName exSrc [0, 1] exRef 0 0 0 (exOps 2 2 1) true 0 = (w, .error (.py .assertionError)) :=
  (C116_assertions exAll w exName exSrc [0, 1] exRef 0 0 0 (exOps 2 2 1) true 0).2 rfl (exSort 2 2 1) rfl ⟨_, rfl⟩

/-- `C116_start_matrix`: one reference band in a model with two bands fills the matrix. -/
example : setFirst (⟨⟨[(0, 0)]⟩, ⟨[(0, 1)]⟩⟩ : Tb 1 2) (fun _ : Fin 1 => (3 : ℝ)) = .ok ⟨⟨[(0, Matrix.of fun _ _ => ((3 : ℝ) : ℂ))]⟩, ⟨[(0, 1)]⟩⟩ :=
  (C116_start_matrix (⟨⟨[(0, 0)]⟩, ⟨[(0, 1)]⟩⟩ : Tb 1 2) 0 0 [] rfl (fun _ : Fin 1 => (3 : ℝ))).2.1 (by decide) rfl

/-- `C116_added_bands`: one band above two reference bands. -/
example (w : World ExFile ℕ) : autofit exAll w exName exSrc [0, 1] exRef 0 0 1 (exOps 3 2 1) true 3 = (w, .error (.py .valueError)) :=
  C116_added_bands exAll w exName exSrc [0, 1] exRef 0 0 1 (exOps 3 2 1) (exOps_keeps 3 2 1) true 3 (by norm_num) le_rfl le_rfl (by norm_num)
    (by norm_num) le_rfl (exSort 3 2 1) rfl (by simp) [] rfl (fun t => ⟨t, rfl⟩)

/-- `C116_best`: the loss of the chosen model. -/
example : ∃ ks' ref' p, prepare (exOps 2 2 1) exSrc [0, 1] exRef 0 3 = .ok (ks', ref', some p) ∧
    ∃ N, Spec.Best (restart (exOps 2 2 1) N ks' ref') (List.range 3) (some p) := by
  obtain ⟨ks', ref', p, h, -⟩ := prepare_returns exSrc [0, 1] exRef 0 (exOps 2 2 1) (exOps_fits 2 2 1) 3 (by norm_num) (exSort 2 2 1) rfl
    (by simp) [] rfl
  obtain ⟨N, -, hN⟩ := C116_best _ _ _ _ _ _ _ _ _ h
  exact ⟨ks', ref', p, h, N, hN⟩

/-- `C116_exact_fit`: the error is zero. -/
example : ∃ w', autofit exAll ⟨fun _ => none, 7⟩ exName exSrc [0, 1] exRef 0 0 0 (exOps 2 2 0) true 3 = (w', .error (.py .valueError)) := by
  obtain ⟨ks', ref', p, h, hnb⟩ := prepare_returns exSrc [0, 1] exRef 0 (exOps 2 2 0) (exOps_fits 2 2 0) 3 (by norm_num) (exSort 2 2 0) rfl
    (by simp) [] rfl
  have hne : p.1.H.terms ≠ [] := by
    intro h0
    rw [Spec.nbrs, h0] at hnb
    cases hnb
  obtain ⟨w', hs⟩ := save_returns (name := exName) (L := exAll) (fun _ => rfl) ⟨fun _ => none, 7⟩ p.1 hne Spec.start
  rw [fileName_eq] at hs
  exact ⟨w', C116_exact_fit exAll ⟨fun _ => none, 7⟩ w' exName exSrc [0, 1] exRef 0 0 0 (exOps 2 2 0) true 3 le_rfl le_rfl le_rfl ks' ref' p.1 p.2
    h hs 1 [0] rfl (by simp)⟩

end TB.Autofit
