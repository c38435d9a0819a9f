import Mathlib.Tactic.Linarith
import Mathlib.Tactic.Ring
import Mathlib.Tactic.Positivity
import Mathlib.Tactic.FieldSimp
import Mathlib.Tactic.NormNum
import Verif.Model.DosThermal
import Verif.Props.DosConv
import Verif.Props.Dos

/-!
# Lemmas about the finite temperature functions of `density_of_states.py`
-/

namespace TB.Dos

theorem kB_pos : 0 < kB := by norm_num [kB]

theorem fermi_anti (beta : ℝ) (hb : 0 < beta) : StrictAnti (fermi beta) := by
  intro a b hab
  rw [fermi, fermi]
  have h1 : Real.exp (beta * a) < Real.exp (beta * b) := Real.exp_lt_exp.2 (mul_lt_mul_of_pos_left hab hb)
  exact one_div_lt_one_div_of_lt (by positivity) (by linarith)

theorem fermi_mem (beta e : ℝ) : 0 < fermi beta e ∧ fermi beta e < 1 := by
  rw [fermi]
  have := Real.exp_pos (beta * e)
  exact ⟨by positivity, by rw [div_lt_one (by positivity)]; linarith⟩

theorem fermi_zero (beta : ℝ) : fermi beta 0 = 1 / 2 := by
  rw [fermi]; norm_num

theorem logit_fermi (beta e : ℝ) : logit (fermi beta e) = -(beta * e) := by
  rw [logit, fermi]
  have := Real.exp_pos (beta * e)
  have h1 : 1 / (1 + Real.exp (beta * e)) / (1 - 1 / (1 + Real.exp (beta * e))) = Real.exp (-(beta * e)) := by
    rw [Real.exp_neg]
    field_simp
    ring
  rw [h1, Real.log_exp]

theorem logit_half : logit (1 / 2) = 0 := by
  rw [logit]; norm_num

theorem logit_lt {p q : ℝ} (hp : 0 < p) (hpq : p < q) (hq : q < 1) : logit p < logit q := by
  rw [logit, logit]
  refine Real.log_lt_log (div_pos hp (by linarith)) ?_
  rw [div_lt_div_iff₀ (by linarith) (by linarith)]
  nlinarith

/-- The energy belonging to the occupation `p`. -/
theorem energy_fermi (beta mu e : ℝ) (hb : 0 < beta) : -logit (fermi beta (e - mu)) / beta + mu = e := by
  rw [logit_fermi]
  field_simp
  ring

theorem mem_linspaceOpen {a b : ℝ} {n : ℕ} {p : ℝ} (h : p ∈ linspaceOpen a b n) (hlt : b ≤ a) : b ≤ p ∧ p ≤ a ∧ (b < a → b < p) := by
  obtain ⟨i, hi', rfl⟩ := List.mem_map.1 h
  have hi : i < n := List.mem_range.1 hi'
  have hn : (0 : ℝ) < n := by exact_mod_cast (Nat.zero_le i).trans_lt hi
  have h1 : (i : ℝ) < n := by exact_mod_cast hi
  have h0 : (0 : ℝ) ≤ i := Nat.cast_nonneg i
  have e1 : a + (i : ℝ) * ((b - a) / n) = b + (a - b) * ((n - i) / n) := by field_simp; ring
  have e2 : a + (i : ℝ) * ((b - a) / n) = a - (a - b) * (i / n) := by field_simp; ring
  have p1 : 0 < ((n : ℝ) - i) / n := div_pos (by linarith) hn
  have p2 : 0 ≤ (i : ℝ) / n := div_nonneg h0 hn.le
  refine ⟨?_, ?_, fun hba => ?_⟩
  · rw [e1]; nlinarith [mul_nonneg (sub_nonneg.2 hlt) p1.le]
  · rw [e2]; nlinarith [mul_nonneg (sub_nonneg.2 hlt) p2]
  · rw [e1]; nlinarith [mul_pos (sub_pos.2 hba) p1]

theorem mem_linspace' {a b : ℝ} {n : ℕ} {p : ℝ} (h : p ∈ linspace a b n) (hlt : b ≤ a) : b ≤ p ∧ p ≤ a := by
  obtain ⟨i, hi', rfl⟩ := List.mem_map.1 h
  have hi : i < n := List.mem_range.1 hi'
  rcases Nat.lt_or_ge n 2 with hn | hn
  · have : i = 0 := by omega
    subst this
    simp only [Nat.cast_zero, zero_mul, add_zero]
    exact ⟨hlt, le_rfl⟩
  · have hn' : (0 : ℝ) < (n : ℝ) - 1 := by
      have : (2 : ℝ) ≤ n := by exact_mod_cast hn
      linarith
    have h1 : (i : ℝ) ≤ n - 1 := by
      have : (i : ℝ) + 1 ≤ n := by exact_mod_cast hi
      linarith
    have h0 : (0 : ℝ) ≤ i := Nat.cast_nonneg i
    have e1 : a + (i : ℝ) * ((b - a) / (n - 1)) = b + (a - b) * ((n - 1 - i) / (n - 1)) := by field_simp; ring
    have e2 : a + (i : ℝ) * ((b - a) / (n - 1)) = a - (a - b) * (i / (n - 1)) := by field_simp; ring
    have p1 : 0 ≤ ((n : ℝ) - 1 - i) / (n - 1) := div_nonneg (by linarith) hn'.le
    have p2 : 0 ≤ (i : ℝ) / (n - 1) := div_nonneg h0 hn'.le
    constructor
    · rw [e1]; nlinarith [mul_nonneg (sub_nonneg.2 hlt) p1]
    · rw [e2]; nlinarith [mul_nonneg (sub_nonneg.2 hlt) p2]

theorem pairwise_linspaceOpen {a b : ℝ} (n : ℕ) (h : b < a) : (linspaceOpen a b n).Pairwise fun p q => q < p := by
  rw [linspaceOpen, List.pairwise_map]
  refine List.Pairwise.imp_of_mem ?_ List.pairwise_lt_range
  intro i j hi _ hij
  have hn : (0 : ℝ) < n := by exact_mod_cast (Nat.zero_le i).trans_lt (List.mem_range.1 hi)
  have h1 : (b - a) / n < 0 := div_neg_of_neg_of_pos (by linarith) hn
  have h2 : (i : ℝ) < j := by exact_mod_cast hij
  nlinarith

theorem pairwise_linspace {a b : ℝ} (n : ℕ) (h : b < a) : (linspace a b n).Pairwise fun p q => q < p := by
  rw [linspace, List.pairwise_map]
  refine List.Pairwise.imp_of_mem ?_ List.pairwise_lt_range
  intro i j _ hj hij
  have hn : (0 : ℝ) < (n : ℝ) - 1 := by
    have : (2 : ℝ) ≤ n := by exact_mod_cast (show 2 ≤ n by have := List.mem_range.1 hj; omega)
    linarith
  have h1 : (b - a) / ((n : ℝ) - 1) < 0 := div_neg_of_neg_of_pos (by linarith) hn
  have h2 : (i : ℝ) < j := by exact_mod_cast hij
  nlinarith

theorem pairwise_linspace_up {a b : ℝ} (n : ℕ) (h : a < b) : (linspace a b n).Pairwise fun p q => p < q := by
  rw [linspace, List.pairwise_map]
  refine List.Pairwise.imp_of_mem ?_ List.pairwise_lt_range
  intro i j _ hj hij
  have hn : (0 : ℝ) < (n : ℝ) - 1 := by
    have : (2 : ℝ) ≤ n := by exact_mod_cast (show 2 ≤ n by have := List.mem_range.1 hj; omega)
    linarith
  have h1 : 0 < (b - a) / ((n : ℝ) - 1) := div_pos (by linarith) hn
  have h2 : (i : ℝ) < j := by exact_mod_cast hij
  nlinarith

theorem linspace_head {a b : ℝ} {n : ℕ} (hn : 0 < n) : (linspace a b n).head? = some a := by
  obtain ⟨m, rfl⟩ : ∃ m, n = m + 1 := ⟨n - 1, by omega⟩
  rw [linspace, List.range_succ_eq_map]
  simp

theorem linspaceOpen_head {a b : ℝ} {n : ℕ} (hn : 0 < n) : (linspaceOpen a b n).head? = some a := by
  obtain ⟨m, rfl⟩ : ∃ m, n = m + 1 := ⟨n - 1, by omega⟩
  rw [linspaceOpen, List.range_succ_eq_map]
  simp

theorem linspace_last {a b : ℝ} {n : ℕ} (hn : 2 ≤ n) : (linspace a b n).getLast? = some b := by
  obtain ⟨m, rfl⟩ : ∃ m, n = m + 2 := ⟨n - 2, by omega⟩
  rw [linspace, List.range_succ, List.map_append, List.map_singleton, List.getLast?_append, List.getLast?_singleton, Option.some_or]
  congr 1
  push_cast
  have : (m : ℝ) + 1 ≠ 0 := by positivity
  rw [show (m : ℝ) + 2 - 1 = m + 1 by ring]
  field_simp
  ring

/-- The limits used by `_samples`. -/
theorem samples_limits (e0 e1 mu beta : ℝ) (hb : 0 < beta) (h0 : e0 < mu) (h1 : mu < e1) :
    max (mu - 30 / beta) e0 < mu ∧ mu < min (mu + 30 / beta) e1 := by
  have : 0 < 30 / beta := by positivity
  exact ⟨max_lt (by linarith) h0, lt_min (by linarith) h1⟩

theorem samples_length (e0 e1 mu beta : ℝ) (N : ℕ) : (samples e0 e1 mu beta N).length = N := by
  simp only [samples, linspaceOpen, linspace, List.length_map, List.length_append, List.length_range]
  omega

/-- The samples increase strictly from the lower to the upper limit and contain `mu`. -/
theorem samples_spec (e0 e1 mu beta : ℝ) (N : ℕ) (hb : 0 < beta) (h0 : e0 < mu) (h1 : mu < e1) :
    (samples e0 e1 mu beta N).Pairwise (· < ·) ∧
      (2 ≤ N → (samples e0 e1 mu beta N).head? = some (max (mu - 30 / beta) e0)) ∧
      (1 ≤ N → mu ∈ samples e0 e1 mu beta N) ∧
      (3 ≤ N → (samples e0 e1 mu beta N).getLast? = some (min (mu + 30 / beta) e1)) ∧
      ∀ e ∈ samples e0 e1 mu beta N, max (mu - 30 / beta) e0 ≤ e ∧ e ≤ min (mu + 30 / beta) e1 := by
  obtain ⟨l0, l1⟩ := samples_limits e0 e1 mu beta hb h0 h1
  set a := max (mu - 30 / beta) e0 with ha
  set c := min (mu + 30 / beta) e1 with hc
  have hfa : 1 / 2 < fermi beta (a - mu) := by
    rw [← fermi_zero beta]; exact fermi_anti beta hb (by linarith)
  have hfc : fermi beta (c - mu) < 1 / 2 := by
    rw [← fermi_zero beta]; exact fermi_anti beta hb (by linarith)
  have ma := fermi_mem beta (a - mu)
  have mc := fermi_mem beta (c - mu)
  have hmem : ∀ p ∈ linspaceOpen (fermi beta (a - mu)) (1 / 2) (N / 2) ++ linspace (1 / 2) (fermi beta (c - mu)) ((N + 1) / 2),
      fermi beta (c - mu) ≤ p ∧ p ≤ fermi beta (a - mu) := by
    intro p hp
    rcases List.mem_append.1 hp with hp | hp
    · obtain ⟨k1, k2, -⟩ := mem_linspaceOpen hp hfa.le
      exact ⟨by linarith, k2⟩
    · obtain ⟨k1, k2⟩ := mem_linspace' hp hfc.le
      exact ⟨k1, by linarith⟩
  have hlt : ∀ p q : ℝ, fermi beta (c - mu) ≤ p → p < q → q ≤ fermi beta (a - mu) → -logit q / beta + mu < -logit p / beta + mu := by
    intro p q k1 k2 k3
    have := logit_lt (p := p) (q := q) (by linarith) k2 (by linarith)
    have h3 : -logit q / beta < -logit p / beta := div_lt_div_of_pos_right (by linarith) hb
    linarith
  have hle : ∀ p q : ℝ, fermi beta (c - mu) ≤ p → p ≤ q → q ≤ fermi beta (a - mu) → -logit q / beta + mu ≤ -logit p / beta + mu := by
    intro p q k1 k2 k3
    rcases k2.eq_or_lt with h | h
    · rw [h]
    · exact (hlt p q k1 h k3).le
  refine ⟨?_, fun hN => ?_, fun hN => ?_, fun hN => ?_, ?_⟩
  · rw [samples]
    rw [List.pairwise_map]
    have hp : (linspaceOpen (fermi beta (a - mu)) (1 / 2) (N / 2) ++ linspace (1 / 2) (fermi beta (c - mu)) ((N + 1) / 2)).Pairwise
        fun p q => q < p := by
      rw [List.pairwise_append]
      refine ⟨pairwise_linspaceOpen _ hfa, pairwise_linspace _ hfc, fun p hp q hq => ?_⟩
      exact lt_of_le_of_lt (mem_linspace' hq hfc.le).2 ((mem_linspaceOpen hp hfa.le).2.2 hfa)
    exact List.Pairwise.imp_of_mem (fun {p q} hp hq h => hlt q p (hmem q hq).1 h (hmem p hp).2) hp
  · rw [samples]
    rw [List.head?_map, List.head?_append, linspaceOpen_head (by omega)]
    simp only [Option.some_or, Option.map_some]
    rw [energy_fermi beta mu a hb]
  · rw [samples]
    refine List.mem_map.2 ⟨1 / 2, List.mem_append_right _ ?_, ?_⟩
    · exact List.mem_of_mem_head? (linspace_head (by omega))
    · rw [logit_half]; simp
  · rw [samples]
    rw [List.getLast?_map, List.getLast?_append, linspace_last (by omega)]
    simp only [Option.some_or, Option.map_some]
    rw [energy_fermi beta mu c hb]
  · intro e he
    rw [samples] at he
    obtain ⟨p, hp, rfl⟩ := List.mem_map.1 he
    obtain ⟨k1, k2⟩ := hmem p hp
    have e1 := hle p _ k1 k2 le_rfl
    have e2 := hle _ p le_rfl k1 k2
    rw [energy_fermi beta mu a hb] at e1
    rw [energy_fermi beta mu c hb] at e2
    exact ⟨e1, e2⟩

theorem proper_of_lt {l : List ℝ} (h : l.Pairwise (· < ·)) : Proper l :=
  (List.isChain_iff_pairwise.2 h).imp fun _ _ h => h.ne

/-- The piecewise linear curve through the samples, constant before the first and after the last one. -/
noncomputable def Spec.pl : List (ℝ × ℝ) → ℝ → ℝ
  | [], _ => 0
  | [p], _ => p.2
  | p :: q :: l, e =>
    open Classical in
    if e ≤ p.1 then p.2 else if e ≤ q.1 then p.2 + (q.2 - p.2) / (q.1 - p.1) * (e - p.1) else Spec.pl (q :: l) e

theorem pl_head (p : ℝ × ℝ) (l : List (ℝ × ℝ)) (e : ℝ) (h : e ≤ p.1) : Spec.pl (p :: l) e = p.2 := by
  cases l with
  | nil => rfl
  | cons q l => rw [Spec.pl, if_pos h]

theorem pl_cons (p q : ℝ × ℝ) (l : List (ℝ × ℝ)) (e : ℝ) (hpq : p.1 < q.1) (h : q.1 ≤ e) :
    Spec.pl (p :: q :: l) e = Spec.pl (q :: l) e := by
  rw [Spec.pl, if_neg (by linarith)]
  by_cases h2 : e ≤ q.1
  · have : e = q.1 := le_antisymm h2 h
    rw [if_pos h2, pl_head _ _ _ h2, this]
    have : q.1 - p.1 ≠ 0 := by linarith
    field_simp
    ring
  · rw [if_neg h2]

theorem interpolates_congr {N M : ℝ → ℝ} (p : ℝ × ℝ) (l : List (ℝ × ℝ)) (hs : (p :: l).Pairwise fun p q => p.1 < q.1)
    (h : ∀ e, p.1 ≤ e → N e = M e) (hM : Spec.Interpolates M (p :: l)) : Spec.Interpolates N (p :: l) := by
  induction l generalizing p with
  | nil => exact List.isChain_singleton _
  | cons q l ih =>
    rw [Spec.Interpolates, List.isChain_cons_cons] at hM ⊢
    have hpq : p.1 < q.1 := (List.pairwise_cons.1 hs).1 q (List.mem_cons_self)
    refine ⟨⟨hpq, fun e h1 h2 => ?_⟩, ih q (List.pairwise_cons.1 hs).2 (fun e he => h e (by linarith)) hM.2⟩
    rw [h e h1]
    exact hM.1.2 e h1 h2

theorem pl_spec (pts : List (ℝ × ℝ)) (hs : pts.Pairwise fun p q => p.1 < q.1) :
    Spec.Interpolates (Spec.pl pts) pts ∧ Spec.FlatOutside (Spec.pl pts) pts := by
  induction pts with
  | nil => exact ⟨List.isChain_nil, by simp [Spec.FlatOutside]⟩
  | cons p l ih =>
    cases l with
    | nil =>
      refine ⟨List.isChain_singleton _, ?_, ?_⟩
      · intro r hr e _
        simp only [List.head?_cons, Option.mem_def, Option.some.injEq] at hr
        rw [← hr]; rfl
      · intro r hr e _
        simp only [List.getLast?_singleton, Option.mem_def, Option.some.injEq] at hr
        rw [← hr]; rfl
    | cons q l =>
      have hpq : p.1 < q.1 := (List.pairwise_cons.1 hs).1 q (List.mem_cons_self)
      have hs' := (List.pairwise_cons.1 hs).2
      obtain ⟨i1, i2, i3⟩ := ih hs'
      refine ⟨?_, ?_, ?_⟩
      · rw [Spec.Interpolates, List.isChain_cons_cons]
        refine ⟨⟨hpq, fun e h1 h2 => ?_⟩, ?_⟩
        · rw [Spec.pl]
          by_cases h3 : e ≤ p.1
          · have : e = p.1 := le_antisymm h3 h1
            rw [if_pos h3, this]; ring
          · rw [if_neg h3, if_pos h2]
        · exact interpolates_congr q l hs' (fun e he => pl_cons p q l e hpq he) i1
      · intro r hr e he
        simp only [List.head?_cons, Option.mem_def, Option.some.injEq] at hr
        rw [← hr] at he ⊢
        exact pl_head _ _ _ he
      · intro r hr e he
        rw [List.getLast?_cons_cons] at hr
        have hqr : q.1 ≤ r.1 := by
          have hmem : r ∈ q :: l := List.mem_of_mem_getLast? hr
          rcases List.mem_cons.1 hmem with h | h
          · rw [h]
          · exact ((List.pairwise_cons.1 hs').1 r h).le
        rw [pl_cons p q l e hpq (by linarith)]
        exact i3 r hr e he

end TB.Dos

namespace TB.Dos

/-! ## Monotone curves -/

theorem pl_split (p q : ℝ × ℝ) (l : List (ℝ × ℝ)) (e : ℝ) (hpq : p.1 < q.1) :
    Spec.pl (p :: q :: l) e =
      p.2 + (q.2 - p.2) / (q.1 - p.1) * (max (min e q.1) p.1 - p.1) + (Spec.pl (q :: l) e - q.2) := by
  have hd : q.1 - p.1 ≠ 0 := by linarith
  rw [Spec.pl]
  by_cases h1 : e ≤ p.1
  · rw [if_pos h1, pl_head q l e (by linarith), min_eq_left (by linarith), max_eq_right h1]; ring
  · rw [if_neg h1]
    by_cases h2 : e ≤ q.1
    · rw [if_pos h2, pl_head q l e h2, min_eq_left h2, max_eq_left (by linarith)]; ring
    · rw [if_neg h2, min_eq_right (by linarith), max_eq_left hpq.le]
      field_simp
      ring

theorem pl_continuous (pts : List (ℝ × ℝ)) (hs : pts.Pairwise fun p q => p.1 < q.1) : Continuous (Spec.pl pts) := by
  induction pts with
  | nil => exact continuous_const
  | cons p l ih =>
    cases l with
    | nil => exact continuous_const
    | cons q l =>
      have hpq : p.1 < q.1 := (List.pairwise_cons.1 hs).1 q (List.mem_cons_self)
      have h1 := ih (List.pairwise_cons.1 hs).2
      have h2 : Spec.pl (p :: q :: l) = fun e => p.2 + (q.2 - p.2) / (q.1 - p.1) * (max (min e q.1) p.1 - p.1) + (Spec.pl (q :: l) e - q.2) :=
        funext fun e => pl_split p q l e hpq
      rw [h2]
      fun_prop

theorem pl_mono (pts : List (ℝ × ℝ)) (hs : pts.Pairwise fun p q => p.1 < q.1 ∧ p.2 ≤ q.2) : Monotone (Spec.pl pts) := by
  induction pts with
  | nil => exact fun _ _ _ => le_rfl
  | cons p l ih =>
    cases l with
    | nil => exact fun _ _ _ => le_rfl
    | cons q l =>
      obtain ⟨hpq, hpq2⟩ := (List.pairwise_cons.1 hs).1 q (List.mem_cons_self)
      have h1 := ih (List.pairwise_cons.1 hs).2
      intro x y hxy
      rw [pl_split p q l x hpq, pl_split p q l y hpq]
      have h2 : 0 ≤ (q.2 - p.2) / (q.1 - p.1) := div_nonneg (by linarith) (by linarith)
      have h3 : max (min x q.1) p.1 ≤ max (min y q.1) p.1 := max_le_max (min_le_min_right _ hxy) le_rfl
      nlinarith [h1 hxy, mul_le_mul_of_nonneg_left h3 h2]

/-- The average of a function with the negative derivative of the Fermi function around `x`. -/
noncomputable def Spec.smear (beta : ℝ) (N : ℝ → ℝ) (x : ℝ) : ℝ := ∫ e, N e * Spec.weight beta (e - x)

theorem weight_pos (beta e : ℝ) (hb : 0 < beta) : 0 < Spec.weight beta e := by
  rw [Spec.weight]; positivity

open MeasureTheory in
/-- The average of a monotone continuous curve that is not constant increases strictly. -/
theorem smear_strictMono (beta : ℝ) (hb : 0 < beta) (pts : List (ℝ × ℝ)) (hs : pts.Pairwise fun p q => p.1 < q.1 ∧ p.2 ≤ q.2)
    (p q : ℝ × ℝ) (hp : pts.head? = some p) (hq : pts.getLast? = some q) (hpq : p.2 < q.2) :
    StrictMono (Spec.smear beta (Spec.pl pts)) := by
  have hs' : pts.Pairwise fun p q => p.1 < q.1 := hs.imp fun h => h.1
  obtain ⟨s1, s2⟩ := pl_spec pts hs'
  have hne : pts ≠ [] := by rintro rfl; cases hp
  set N := Spec.pl pts with hN
  have hm : Monotone N := pl_mono pts hs
  have hc : Continuous N := pl_continuous pts hs'
  have hg : ∀ x, Spec.smear beta N x = ∫ u, N (u + x) * Spec.weight beta u := by
    intro x
    rw [Spec.smear, ← integral_add_right_eq_self (fun e => N e * Spec.weight beta (e - x)) x]
    simp only [add_sub_cancel_right]
  have hi : ∀ x, Integrable fun u => N (u + x) * Spec.weight beta u := by
    intro x
    have := (C63_flat beta x hb N pts hne s1 s2).2.comp_add_right x
    simpa only [add_sub_cancel_right] using this
  intro x y hxy
  have hle : Spec.smear beta N x ≤ Spec.smear beta N y := by
    rw [hg, hg]
    exact integral_mono (hi x) (hi y) fun u => mul_le_mul_of_nonneg_right (hm (by linarith)) (weight_nonneg beta u hb.le)
  refine lt_of_le_of_ne hle fun heq => ?_
  have h0 : ∫ u, (N (u + y) * Spec.weight beta u - N (u + x) * Spec.weight beta u) = 0 := by
    rw [integral_sub (hi y) (hi x), ← hg, ← hg, heq, sub_self]
  have h1 : (fun u => N (u + y) * Spec.weight beta u - N (u + x) * Spec.weight beta u) =ᵐ[volume] 0 := by
    refine (integral_eq_zero_iff_of_nonneg (fun u => ?_) ((hi y).sub (hi x))).1 h0
    exact sub_nonneg.2 (mul_le_mul_of_nonneg_right (hm (by linarith)) (weight_nonneg beta u hb.le))
  have hw := weight_continuous beta
  have h2 := (Continuous.ae_eq_iff_eq volume (f := fun u => N (u + y) * Spec.weight beta u - N (u + x) * Spec.weight beta u)
    (g := 0) (by fun_prop) continuous_const).1 h1
  have h3 : ∀ e, N (e + (y - x)) = N e := by
    intro e
    have := congrFun h2 (e - x)
    simp only [Pi.zero_apply, ← sub_mul] at this
    rcases mul_eq_zero.1 this with h | h
    · rw [sub_eq_zero] at h
      rw [show e + (y - x) = e - x + y by ring, h]
      congr 1; ring
    · exact absurd h (weight_pos beta _ hb).ne'
  have h4 : ∀ n : ℕ, N (p.1 + n * (y - x)) = N p.1 := by
    intro n
    induction n with
    | zero => simp
    | succ n ih =>
      rw [← ih, ← h3 (p.1 + n * (y - x))]
      congr 1; push_cast; ring
  obtain ⟨n, hn⟩ := exists_nat_gt ((q.1 - p.1) / (y - x))
  have h5 : q.1 ≤ p.1 + n * (y - x) := by
    have := (div_lt_iff₀ (by linarith : 0 < y - x)).1 hn
    linarith
  have h6 := hm h5
  rw [h4, s2.1 p (by rw [hp]; rfl) p.1 le_rfl, s2.2 q (by rw [hq]; rfl) q.1 le_rfl] at h6
  linarith

/-! ## The equation solved by `chemical_potential` -/

/-- The result of `secant`; `none` if it is not finite. -/
theorem solve_eq (electrons tol : ℝ) (maxsteps : ℕ) (beta a b : ℝ) (pts : List (ℝ × ℝ)) (ext : Extra) (hne : pts ≠ [])
    (hp : Proper (pts.map Prod.fst)) :
    solve electrons tol maxsteps beta a b pts ext =
      .ok (secant electrons (fun x => convValue beta x pts ext) a b tol maxsteps).toOption := by
  have h : ∃ v, convolveDf beta a pts ext = .ok v := by
    cases ext with
    | none => exact ⟨_, rfl⟩
    | flat =>
      obtain ⟨q, l, rfl⟩ := List.exists_cons_of_ne_nil hne
      rw [convolveDf, List.getLast?_eq_some_getLast (by simp), List.head?_cons]
      exact ⟨_, rfl⟩
    | point e n => exact ⟨_, rfl⟩
  obtain ⟨v, hv⟩ := h
  rw [solve, hv]
  simp only [if_pos hp]
  cases secant electrons (fun x => convValue beta x pts ext) a b tol maxsteps <;> rfl

theorem solve_improper (electrons tol : ℝ) (maxsteps : ℕ) (beta a b : ℝ) (pts : List (ℝ × ℝ)) (ext : Extra) (hne : pts ≠ [])
    (hp : ¬ Proper (pts.map Prod.fst)) : solve electrons tol maxsteps beta a b pts ext = .ok none := by
  have h : ∃ v, convolveDf beta a pts ext = .ok v := by
    cases ext with
    | none => exact ⟨_, rfl⟩
    | flat =>
      obtain ⟨q, l, rfl⟩ := List.exists_cons_of_ne_nil hne
      rw [convolveDf, List.getLast?_eq_some_getLast (by simp), List.head?_cons]
      exact ⟨_, rfl⟩
    | point e n => exact ⟨_, rfl⟩
  obtain ⟨v, hv⟩ := h
  rw [solve, hv]
  simp only [if_neg hp]

theorem solve_ok (electrons tol : ℝ) (maxsteps : ℕ) (beta a b : ℝ) (pts : List (ℝ × ℝ)) (ext : Extra) (hne : pts ≠ []) :
    ∃ r, solve electrons tol maxsteps beta a b pts ext = .ok r := by
  by_cases hp : Proper (pts.map Prod.fst)
  · exact ⟨_, solve_eq electrons tol maxsteps beta a b pts ext hne hp⟩
  · exact ⟨_, solve_improper electrons tol maxsteps beta a b pts ext hne hp⟩

theorem stateCurve_energies (d : DoS) (e : List ℝ) : (stateCurve d e).map Prod.fst = e := by
  rw [stateCurve, List.map_map]
  exact List.map_id e

theorem stateCurve_pairwise (d : DoS) (h : ∀ b ∈ d, Spec.Dist b) (e : List ℝ) (he : e.Pairwise (· < ·)) :
    (stateCurve d e).Pairwise fun p q => p.1 < q.1 ∧ p.2 ≤ q.2 := by
  rw [stateCurve, List.pairwise_map]
  exact he.imp fun hab => ⟨hab, (C47_count d h).2.1 hab.le⟩

theorem stateCurve_lt (d : DoS) (e : List ℝ) (he : e.Pairwise (· < ·)) : (stateCurve d e).Pairwise fun p q => p.1 < q.1 := by
  rw [stateCurve, List.pairwise_map]
  exact he

theorem convValue_flat (beta x : ℝ) (hb : 0 < beta) (pts : List (ℝ × ℝ)) (hne : pts ≠ []) (hs : pts.Pairwise fun p q => p.1 < q.1) :
    convValue beta x pts .flat = Spec.smear beta (Spec.pl pts) x := by
  obtain ⟨s1, s2⟩ := pl_spec pts hs
  rw [convValue, (C63_flat beta x hb _ pts hne s1 s2).1, Spec.smear]

/-- Relative change of `beta` in terms of the temperatures. -/
theorem beta_change (T T' : ℝ) (h : 0 < T) (h' : 0 < T') :
    |1 / (kB * T) - 1 / (kB * T')| / (1 / (kB * T')) = |T' / T - 1| := by
  have hk := kB_pos
  have h1 : 0 < 1 / (kB * T') := by positivity
  have e : T' / T - 1 = (1 / (kB * T) - 1 / (kB * T')) / (1 / (kB * T')) := by field_simp
  rw [e, abs_div, abs_of_pos h1]

end TB.Dos
