import Mathlib.Tactic.NormNum
import Mathlib.Tactic.FinCases
import Mathlib.Tactic.Linarith
import Verif.Model.KIntegralCache
import Verif.Model.EigGrad
import Verif.Spec.Integral

/-!
# C133: the cache of `KIntegral` is invisible exactly as far as the two gradient functions of the model agree
-/

namespace TB.PropsKCache
open TB TB.KCache TB.Spec.Integral

variable {M : Type} [AddCommGroup M] [Module ℝ M]

/-! ## The passes over the surfaces -/

theorem zipWith_map_right {α β γ : Type} (f : α → β → γ) (g : α → β) (l : List α) : List.zipWith f l (l.map g) = l.map fun x => f x (g x) := by
  induction l with
  | nil => rfl
  | cons a l ih => simp [ih]

theorem foldl_stepHess (b : Bands) (l : List (List Pt)) (c : List (List V3) × List (List M3) × List (List ℝ) × List Bool) :
    l.foldl (stepHess b) c = (c.1 ++ l.map (fun pts => pts.map fun p => (b.gradHess p.k p.band).1),
      c.2.1 ++ l.map (fun pts => pts.map fun p => (b.gradHess p.k p.band).2),
      c.2.2.1 ++ l.map (fun pts => divide pts (pts.map fun p => (b.gradHess p.k p.band).1)), c.2.2.2 ++ List.replicate l.length true) := by
  induction l generalizing c with
  | nil => simp
  | cons a l ih =>
    rw [List.foldl_cons, ih]
    simp [stepHess, List.replicate_succ]

theorem foldl_stepGrad (b : Bands) (l : List (List Pt)) (c : List (List V3) × List (List ℝ) × List Bool) :
    l.foldl (stepGrad b) c = (c.1 ++ l.map (fun pts => pts.map fun p => b.grad p.k p.band),
      c.2.1 ++ l.map (fun pts => divide pts (pts.map fun p => b.grad p.k p.band)), c.2.2 ++ List.replicate l.length false) := by
  induction l generalizing c with
  | nil => simp
  | cons a l ih =>
    rw [List.foldl_cons, ih]
    simp [stepGrad, List.replicate_succ]

/-- The velocities of the two functions. -/
def vel (b : Bands) : Bool → V3 → ℕ → V3
  | true => fun k n => (b.gradHess k n).1
  | false => b.grad

/-- The hessians. -/
def hes (b : Bands) : V3 → ℕ → M3 := fun k n => (b.gradHess k n).2

/-- The cached fields hold the velocities of `f` and, if `hasH`, the hessians. -/
def Holds (s : Setup) (f : V3 → ℕ → V3) (hasH : Bool) (c : Cache) : Prop :=
  c.v = some (s.surfaces.map fun q => q.2.map fun p => f p.k p.band) ∧
  c.w = some (s.surfaces.map fun q => divide q.2 (q.2.map fun p => f p.k p.band)) ∧
  c.h = if hasH then some (s.surfaces.map fun q => q.2.map fun p => hes s.model p.k p.band) else none

theorem precompute_true (s : Setup) (c : Cache) :
    Holds s (vel s.model true) true (precompute s true c) ∧ (precompute s true c).log = c.log ++ List.replicate s.surfaces.length true := by
  unfold precompute
  rw [if_pos rfl, foldl_stepHess]
  simp only [List.nil_append, List.length_map, List.map_map]
  exact ⟨⟨rfl, rfl, rfl⟩, trivial⟩

theorem precompute_false (s : Setup) (c : Cache) (hasH : Bool)
    (hc : c.h = if hasH then some (s.surfaces.map fun q => q.2.map fun p => hes s.model p.k p.band) else none) :
    Holds s (vel s.model false) hasH (precompute s false c) ∧ (precompute s false c).log = c.log ++ List.replicate s.surfaces.length false := by
  unfold precompute
  rw [if_neg (by simp), foldl_stepGrad]
  simp only [List.nil_append, List.length_map, List.map_map]
  exact ⟨⟨rfl, rfl, hc⟩, trivial⟩

/-! ## One integral -/

theorem sum_replicate_left (x : M) (w : List ℝ) : ((List.replicate w.length x).zip w).map (fun q => q.2 • q.1) = w.map fun a => a • x := by
  induction w with
  | nil => rfl
  | cons a w ih => simp [List.replicate_succ, ih]

theorem sum_replicate_right (a : ℝ) (f : List M) : (f.zip (List.replicate f.length a)).map (fun q => q.2 • q.1) = f.map fun x => a • x := by
  induction f with
  | nil => rfl
  | cons x f ih => simp [List.replicate_succ, ih]

theorem zipWith_eq_zip (f : List M) (w : List ℝ) : List.zipWith (fun x a => a • x) f w = (f.zip w).map fun q => q.2 • q.1 := by
  induction f generalizing w with
  | nil => rfl
  | cons x f ih =>
    cases w with
    | nil => rfl
    | cons a w => simp [ih]

theorem weightedSum_eq (f : List M) (w : List ℝ) : weightedSum f w = total f w := by
  unfold weightedSum total
  by_cases hfw : f.length = w.length
  · have hn : (if f.length = 1 then w.length else f.length) = f.length := by
      by_cases h1 : f.length = 1
      · rw [if_pos h1, hfw]
      · rw [if_neg h1]
    rw [if_pos hfw, hn]
    simp only [stretch, if_true]
    rw [if_pos hfw.symm, zipWith_eq_zip]
  · rw [if_neg hfw]
    match f, w, hfw with
    | [x], w, hfw =>
      simp only [List.length_singleton, if_true]
      have h1 : stretch w.length [x] = some (List.replicate w.length x) := by
        unfold stretch
        rw [if_neg hfw]
      have h2 : stretch w.length w = some w := by
        unfold stretch
        rw [if_pos rfl]
      rw [h1, h2]
      simp only
      rw [sum_replicate_left]
    | [], [a], hfw => rfl
    | x :: y :: f, [a], hfw =>
      have hn : (if (x :: y :: f).length = 1 then [a].length else (x :: y :: f).length) = (x :: y :: f).length := if_neg (by simp)
      rw [hn]
      have h1 : stretch (x :: y :: f).length [a] = some (List.replicate (x :: y :: f).length a) := by
        unfold stretch
        rw [if_neg (by simp)]
      have h2 : stretch (x :: y :: f).length (x :: y :: f) = some (x :: y :: f) := by
        unfold stretch
        rw [if_pos rfl]
      simp only [h1, h2]
      rw [sum_replicate_right]
    | [], a :: b :: w, hfw => rfl
    | x :: y :: f, [], hfw => simp [stretch]
    | x :: y :: f, a :: b :: w, hfw =>
      have hn : (if (x :: y :: f).length = 1 then (a :: b :: w).length else (x :: y :: f).length) = (x :: y :: f).length := if_neg (by simp)
      rw [hn]
      have h1 : stretch (x :: y :: f).length (a :: b :: w) = none := by
        unfold stretch
        rw [if_neg (Ne.symm hfw)]
      simp only [h1]
      cases stretch (x :: y :: f).length (x :: y :: f) <;> rfl

/-- The hessians that the integrand gets. -/
def hesOpt (b : Bands) (hs : Bool) : Option (V3 → ℕ → M3) := if hs then some (hes b) else none

theorem surfaceLoop_eq (s : Setup) (g : Integrand M) (hs hasH : Bool) (hh : hs = true → hasH = true) (f : V3 → ℕ → V3) (c : Cache) (hc : Holds s f hasH c)
    (l : List (ℝ × List Pt)) (i : ℕ) (hl : ∀ j, l[j]? = s.surfaces[i + j]?) :
    surfaceLoop g hs c i l = surfaces f (hesOpt s.model hs) g l := by
  induction l generalizing i with
  | nil => rfl
  | cons q l ih =>
    obtain ⟨e, pts⟩ := q
    have h0 : s.surfaces[i]? = some (e, pts) := by
      have := hl 0
      simpa using this.symm
    have hv : item c.v i = .ok (pts.map fun p => f p.k p.band) := by
      rw [hc.1]
      simp [item, h0]
    have hw : item c.w i = .ok (pts.map fun p => p.weight / (1 / 100000000 + Real.sqrt (f p.k p.band 0 ^ 2 + f p.k p.band 1 ^ 2 + f p.k p.band 2 ^ 2))) := by
      rw [hc.2.1]
      simp only [item, List.getElem?_map, h0, Option.map_some]
      rw [divide, zipWith_map_right]
      rfl
    have hhh : hessArg hs c i =
        .ok ((hesOpt s.model hs).map fun H => pts.map fun p => H p.k p.band) := by
      unfold hessArg
      cases hs with
      | false => rfl
      | true =>
        rw [hc.2.2, hh rfl]
        simp only [if_true, item, List.getElem?_map, h0, Option.map_some]
        rfl
    have ih' := ih (i + 1) (fun j => by
      have := hl (j + 1)
      rw [List.getElem?_cons_succ] at this
      rw [this]
      congr 1
      omega)
    unfold surfaceLoop surfaces surface
    rw [hv, hhh, hw, ih']
    simp only [bind, Except.bind, pure, Except.pure]
    cases hg : g e (pts.map fun p => f p.k p.band) ((hesOpt s.model hs).map fun H => pts.map fun p => H p.k p.band) (pts.map Pt.k) with
    | error x => rfl
    | ok F =>
      simp only
      rw [weightedSum_eq]
      cases total F (pts.map fun p => p.weight / (1 / 100000000 + Real.sqrt (f p.k p.band 0 ^ 2 + f p.k p.band 1 ^ 2 + f p.k p.band 2 ^ 2))) with
      | error x => rfl
      | ok y =>
        simp only
        cases surfaces f (hesOpt s.model hs) g l <;> rfl

theorem momentSum_eq (a : ℕ) (mu : ℝ) (I : List M) (S : List (ℝ × List Pt)) (w : List ℝ) :
    momentSum a mu I (S.map Prod.fst) w = (((S.zip I).zip w).map fun q => (q.2 * (q.1.1.1 - mu) ^ a) • q.1.2).sum := by
  induction I generalizing S w with
  | nil => cases S <;> simp [momentSum]
  | cons x I ih =>
    cases S with
    | nil => simp [momentSum]
    | cons q S =>
      cases w with
      | nil => simp [momentSum]
      | cons b w =>
        rw [List.map_cons, momentSum, ih]
        simp

/-- The integral from a filled cache. -/
theorem integrate_holds (s : Setup) (g : Integrand M) (hs hasH : Bool) (m : ℤ) (hm : 0 ≤ m) (f : V3 → ℕ → V3) (c : Cache) (hc : Holds s f hasH c)
    (hh : hs = true → hasH = true) : integrate s g hs m c = (value s f (hesOpt s.model hs) g m.toNat, c) := by
  have hb : (c.v.isNone || (hs && c.h.isNone)) = false := by
    rw [hc.1, hc.2.2]
    cases hs with
    | false => simp
    | true => simp [hh rfl]
  unfold integrate value
  rw [if_neg (not_lt.2 hm), hb]
  simp only [Bool.false_eq_true, if_false]
  rw [surfaceLoop_eq s g hs hasH hh f c hc s.surfaces 0 (fun j => by rw [Nat.zero_add])]
  cases surfaces f (hesOpt s.model hs) g s.surfaces with
  | error x => rfl
  | ok I =>
    simp only [Except.map]
    simp only [momentSum_eq]

/-! ## Programs -/

/-- What a fresh object returns. -/
noncomputable def first (s : Setup) (g : Integrand M) (hs : Bool) (m : ℤ) : Except Err (List (List M)) :=
  if m < 0 then .error .assertionError else value s (vel s.model hs) (hesOpt s.model hs) g m.toNat

/-- The state after some calls: fresh, or holding the velocities of one of the two functions, with hessians if those of `bands_grad_hess`
are held. -/
def Inv (s : Setup) (c : Cache) : Prop :=
  (c.v = none ∧ c.h = none) ∨ ∃ src hasH, Holds s (vel s.model src) hasH c ∧ (src = true → hasH = true)

theorem inv_h {s : Setup} {c : Cache} (h : Inv s c) :
    ∃ hasH : Bool, c.h = if hasH then some (s.surfaces.map fun q => q.2.map fun p => hes s.model p.k p.band) else none := by
  rcases h with h | ⟨src, hasH, h, _⟩
  · exact ⟨false, by rw [h.2]; rfl⟩
  · exact ⟨hasH, h.2.2⟩

theorem inv_precompute {s : Setup} {c : Cache} (h : Inv s c) (hs : Bool) : Inv s (precompute s hs c) := by
  cases hs with
  | true => exact Or.inr ⟨true, true, (precompute_true s c).1, fun _ => rfl⟩
  | false =>
    obtain ⟨hasH, hh⟩ := inv_h h
    exact Or.inr ⟨false, hasH, (precompute_false s c hasH hh).1, by simp⟩

/-- The state that `integrate_df` uses. -/
theorem integrate_used {s : Setup} {c : Cache} (h : Inv s c) (g : Integrand M) (hs : Bool) (m : ℤ) (hm : 0 ≤ m) :
    ∃ src hasH, (integrate s g hs m c).1 = value s (vel s.model src) (hesOpt s.model hs) g m.toNat ∧ Holds s (vel s.model src) hasH (integrate s g hs m c).2 ∧
      (src = true → hasH = true) ∧ (hs = true → hasH = true) ∧ (c.v = none → src = hs) ∧
      (∀ f b, Holds s f b c → (hs = true → b = true) → (integrate s g hs m c) = (value s f (hesOpt s.model hs) g m.toNat, c)) := by
  have hlast : ∀ f b, Holds s f b c → (hs = true → b = true) → (integrate s g hs m c) = (value s f (hesOpt s.model hs) g m.toNat, c) :=
    fun f b hf hb => integrate_holds s g hs b m hm f c hf hb
  by_cases hb : (c.v.isNone || (hs && c.h.isNone)) = true
  · -- a new pass
    have key : ∀ hasH, Holds s (vel s.model hs) hasH (precompute s hs c) → (hs = true → hasH = true) →
        integrate s g hs m c = (value s (vel s.model hs) (hesOpt s.model hs) g m.toNat, precompute s hs c) := by
      intro hasH hH hh
      have h2 := integrate_holds s g hs hasH m hm _ _ hH hh
      have hb2 : ((precompute s hs c).v.isNone || (hs && (precompute s hs c).h.isNone)) = false := by
        rw [hH.1, hH.2.2]
        cases hs with
        | false => simp
        | true => simp [hh rfl]
      unfold integrate at h2 ⊢
      rw [if_neg (not_lt.2 hm)] at h2 ⊢
      rw [hb2] at h2
      rw [hb]
      simpa using h2
    cases hs with
    | true =>
      have hp := (precompute_true s c).1
      have e := key true hp fun _ => rfl
      rw [e]
      exact ⟨true, true, rfl, hp, fun _ => rfl, fun _ => rfl, fun _ => rfl, by rw [← e]; exact hlast⟩
    | false =>
      obtain ⟨hasH, hh⟩ := inv_h h
      have hp := (precompute_false s c hasH hh).1
      have e := key hasH hp (by simp)
      rw [e]
      exact ⟨false, hasH, rfl, hp, by simp, by simp, fun _ => rfl, by rw [← e]; exact hlast⟩
  · rcases h with h | ⟨src, hasH, hH, hsrc⟩
    · rw [h.1] at hb
      simp at hb
    · have hh : hs = true → hasH = true := by
        intro e
        rw [e, hH.1, hH.2.2] at hb
        cases hasH with
        | true => rfl
        | false => simp at hb
      have e := integrate_holds s g hs hasH m hm _ c hH hh
      rw [e]
      exact ⟨src, hasH, rfl, hH, hsrc, hh, by rw [hH.1]; simp, by rw [← e]; exact hlast⟩

theorem inv_integrate {s : Setup} {c : Cache} (h : Inv s c) (g : Integrand M) (hs : Bool) (m : ℤ) : Inv s (integrate s g hs m c).2 := by
  by_cases hm : 0 ≤ m
  · obtain ⟨src, hasH, _, h2, h3, _⟩ := integrate_used h g hs m hm
    exact Or.inr ⟨src, hasH, h2, h3⟩
  · unfold integrate
    rw [if_pos (not_le.1 hm)]
    exact h

/-- **C133.** If the two functions of the band model return the same velocities, then in every program every integral is what a fresh
object would return: calls before it, with or without hessians, successful or not, cannot be noticed. -/
theorem C133_history_free (s : Setup) (hagree : ∀ k n, (s.model.gradHess k n).1 = s.model.grad k n) (ops : List (Op M)) :
    (run s ops fresh).1 = ops.filterMap fun o => match o with
      | .precompute _ => none
      | .integrate g hs m => some (if m < 0 then .error .assertionError
          else value s s.model.grad (if hs then some fun k n => (s.model.gradHess k n).2 else none) g m.toNat) := by
  have hv : ∀ b, vel s.model b = s.model.grad := by
    intro b
    cases b with
    | false => rfl
    | true => funext k n; exact hagree k n
  have gen : ∀ (ops : List (Op M)) (c : Cache), Inv s c → (run s ops c).1 = ops.filterMap fun o => match o with
      | .precompute _ => none
      | .integrate g hs m => some (if m < 0 then .error .assertionError
          else value s s.model.grad (if hs then some fun k n => (s.model.gradHess k n).2 else none) g m.toNat) := by
    intro ops
    induction ops with
    | nil => intro c _; rfl
    | cons o ops ih =>
      intro c hc
      cases o with
      | precompute hs =>
        rw [run, ih _ (inv_precompute hc hs)]
        rfl
      | integrate g hs m =>
        rw [run]
        simp only
        rw [ih _ (inv_integrate hc g hs m)]
        simp only [List.filterMap_cons]
        congr 1
        by_cases hm : m < 0
        · rw [if_pos hm]
          unfold integrate
          rw [if_pos hm]
        · obtain ⟨src, hasH, h1, _⟩ := integrate_used hc g hs m (not_lt.1 hm)
          rw [if_neg hm, h1, hv]
          rfl
  exact gen ops fresh (Or.inl ⟨rfl, rfl⟩)

/-- **C133, defect.** The function that filled the cache decides: after any integral with hessians, an integral without hessians uses the
velocities of `bands_grad_hess`, while a fresh object (and any object after `precompute()`) uses those of `bands_grad`. -/
theorem C133_defect_order (s : Setup) (g g' : Integrand M) (m m' : ℤ) (hm : 0 ≤ m) (hm' : 0 ≤ m') :
    (run s [.integrate g false m] fresh).1 = [value s s.model.grad none g m.toNat] ∧
    (run s [.integrate g' true m', .integrate g false m] fresh).1[1]? = some (value s (fun k n => (s.model.gradHess k n).1) none g m.toNat) ∧
    (run s [.integrate g' true m', .precompute false, .integrate g false m] fresh).1[1]? = some (value s s.model.grad none g m.toNat) := by
  have hf : Inv s fresh := Or.inl ⟨rfl, rfl⟩
  refine ⟨?_, ?_, ?_⟩
  · obtain ⟨src, hasH, h1, _, _, _, h5, _⟩ := integrate_used hf g false m hm
    simp only [run]
    rw [h1, h5 rfl]
    rfl
  · obtain ⟨src, hasH, _, h2, h3, h4, h5, _⟩ := integrate_used hf g' true m' hm'
    have e := h5 rfl
    rw [e] at h2
    have h6 := integrate_holds s g false hasH m hm _ _ h2 (by simp)
    simp only [run]
    rw [h6]
    rfl
  · obtain ⟨hasH, hh⟩ := inv_h (inv_integrate hf g' true m')
    have h2 := (precompute_false s (integrate s g' true m' fresh).2 hasH hh).1
    have h6 := integrate_holds s g false hasH m hm _ _ h2 (by simp)
    simp only [run]
    rw [h6]
    rfl

/-- **C133.** Work: a program of (valid) integrals calls the band model once per Fermi surface if its first integral has hessians or none
has, and twice per surface otherwise, no matter how many integrals. -/
theorem C133_evaluations (s : Setup) (g : Integrand M) (hs : Bool) (m : ℤ) (hm : 0 ≤ m) (ops : List (Integrand M × Bool × ℤ))
    (hops : ∀ o ∈ ops, 0 ≤ o.2.2) :
    (run s (.integrate g hs m :: ops.map fun o => .integrate o.1 o.2.1 o.2.2) fresh).2.log =
      List.replicate s.surfaces.length hs ++ if hs = false ∧ ∃ o ∈ ops, o.2.1 = true then List.replicate s.surfaces.length true else [] := by
  -- with hessians nothing is added
  have hfull : ∀ (ops : List (Integrand M × Bool × ℤ)) (c : Cache) (f), (∀ o ∈ ops, 0 ≤ o.2.2) → Holds s f true c →
      (run s (ops.map fun o => .integrate o.1 o.2.1 o.2.2) c).2 = c := by
    intro ops
    induction ops with
    | nil => intro c f _ _; rfl
    | cons o ops ih =>
      intro c f ho hc
      rw [List.map_cons, run]
      simp only
      rw [integrate_holds s o.1 o.2.1 true o.2.2 (ho o (by simp)) f c hc (fun _ => rfl)]
      exact ih c f (fun x hx => ho x (by simp [hx])) hc
  -- without hessians one more pass at the first integral with hessians
  have hhalf : ∀ (ops : List (Integrand M × Bool × ℤ)) (c : Cache), (∀ o ∈ ops, 0 ≤ o.2.2) → Holds s (vel s.model false) false c →
      (run s (ops.map fun o => .integrate o.1 o.2.1 o.2.2) c).2.log =
        c.log ++ if ∃ o ∈ ops, o.2.1 = true then List.replicate s.surfaces.length true else [] := by
    intro ops
    induction ops with
    | nil => intro c _ _; simp [run]
    | cons o ops ih =>
      intro c ho hc
      obtain ⟨g1, h1, m1⟩ := o
      have hm1 : 0 ≤ m1 := ho (g1, h1, m1) (by simp)
      rw [List.map_cons, run]
      simp only
      cases h1 with
      | false =>
        rw [integrate_holds s g1 false false m1 hm1 _ c hc (by simp)]
        simp only
        rw [ih c (fun x hx => ho x (by simp [hx])) hc]
        by_cases hx : ∃ o ∈ ops, o.2.1 = true
        · obtain ⟨o, h1, h2⟩ := hx
          rw [if_pos ⟨o, h1, h2⟩, if_pos ⟨o, List.mem_cons_of_mem _ h1, h2⟩]
        · rw [if_neg hx, if_neg]
          rintro ⟨o, h1, h2⟩
          rcases List.mem_cons.1 h1 with rfl | h1
          · exact absurd h2 (by simp)
          · exact hx ⟨o, h1, h2⟩
      | true =>
        have hp := precompute_true s c
        have e : (integrate s g1 true m1 c).2 = precompute s true c := by
          unfold integrate
          rw [if_neg (not_lt.2 hm1), hc.1, hc.2.2]
          simp
        rw [e, hfull ops _ _ (fun x hx => ho x (by simp [hx])) hp.1, hp.2]
        simp
  have e : (integrate s g hs m fresh).2 = precompute s hs fresh := by
    unfold integrate
    rw [if_neg (not_lt.2 hm)]
    simp [fresh]
  rw [run]
  simp only
  rw [e]
  cases hs with
  | true =>
    have hp := precompute_true s fresh
    rw [hfull ops _ _ hops hp.1, hp.2]
    simp [fresh]
  | false =>
    have hp := precompute_false s fresh false rfl
    rw [hhalf ops _ hops hp.1, hp.2]
    refine congrArg₂ (· ++ ·) (by simp [fresh]) ?_
    exact if_congr (by simp) rfl rfl

/-! ## A model for which the order matters -/

/-- One orbital with overlap: `bands_grad` and `bands_grad_hess` of `AsymTightBindingModel` (`Model/EigGrad`) for `H' = H'' = 0`, `S' = 1` and
energy 1 in the direction x. -/
noncomputable def exBands : Bands where
  grad := fun _ _ => ![TB.geighGrad (n := 1) (fun _ => 1) 1 0 1 0, 0, 0]
  gradHess := fun _ _ => (![TB.asymHessGrad (n := 1) 1 0 0, 0, 0], 0)

noncomputable def exSetup : Setup := ⟨exBands, [(0, [⟨0, 0, 1⟩])], [(0, [1])]⟩

/-- `g(e, v, k) = v[:, 0]`. -/
def exG : Integrand ℝ := fun _ v _ _ => .ok (v.map fun x => x 0)

/-- `integrate_df(g)` gives -1/(10⁻⁸+1) on a fresh object and 0 after an integral with hessians. -/
example : (run exSetup [.integrate exG false 0] fresh).1[0]? ≠ (run exSetup [.integrate exG true 0, .integrate exG false 0] fresh).1[1]? := by
  obtain ⟨h1, h2, _⟩ := C133_defect_order exSetup exG exG 0 0 le_rfl le_rfl
  rw [h1, h2]
  intro h
  simp only [List.getElem?_cons_zero, Option.some.injEq] at h
  have e1 : TB.geighGrad (n := 1) (fun _ => 1) 1 0 1 0 = -1 := by
    simp [TB.geighGrad, TB.rot]
  have e2 : TB.asymHessGrad (n := 1) 1 0 0 = 0 := by
    simp [TB.asymHessGrad, TB.rot]
  simp only [value, surfaces, surface, exSetup, exG, exBands, total, stretch, e1, e2] at h
  norm_num at h
  linarith [Real.sqrt_nonneg (1 + (![-1, 0, 0] : V3) 2 ^ 2)]

/-- A model whose functions agree. -/
example : (run ⟨⟨fun k _ => k, fun k _ => (k, 1)⟩, [(0, [⟨1, 0, 1⟩])], [(0, [1])]⟩ [.precompute true, .integrate exG false 0] fresh).1 =
    [value ⟨⟨fun k _ => k, fun k _ => (k, 1)⟩, [(0, [⟨1, 0, 1⟩])], [(0, [1])]⟩ (fun k _ => k) none exG 0] := by
  rw [C133_history_free _ (fun _ _ => rfl)]
  rfl

/-- Two passes. -/
example : (run exSetup [.integrate exG false 0, .integrate exG true 2, .integrate exG false 0] fresh).2.log = [false, true] := by
  have := C133_evaluations exSetup exG false 0 le_rfl [(exG, true, 2), (exG, false, 0)] (by simp)
  simp only [List.map_cons, List.map_nil] at this
  rw [this]
  simp [exSetup]

end TB.PropsKCache
