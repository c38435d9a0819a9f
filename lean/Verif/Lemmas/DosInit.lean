import Mathlib.Tactic.Ring
import Mathlib.Tactic.FieldSimp
import Mathlib.Tactic.Linarith
import Verif.Model.DosInit
import Verif.Lemmas.Interpolate

/-! # Lemmas about `DensityOfStates.__init__` -/

namespace TB.DosInit

/-- The coordinate with index `i` on an axis. -/
noncomputable def coord (N : ℤ) (midpoint : Bool) (r : ℝ × ℝ) (i : ℕ) : ℝ := r.1 + (i + if midpoint then 1 / 2 else 0) * ((r.2 - r.1) / N)

/-- The number of points on an axis. -/
def count (N : ℤ) (wrap midpoint : Bool) : ℤ := if wrap || midpoint then N else N + 1

theorem axis_ok (N : ℤ) (w mp : Bool) (r : ℝ × ℝ) (h : 2 ≤ count N w mp) :
    axis N w mp r = .ok ((List.range (count N w mp).toNat).map (coord N mp r)) := by
  unfold count at h ⊢
  unfold axis
  by_cases hw : (w || mp) = true
  · rw [if_pos hw] at h ⊢
    rw [if_pos hw, if_neg (by omega), if_neg (by simp; intro _; omega)]
    congr 1
    unfold linspaceOpen
    refine List.map_congr_left fun i _ => ?_
    have hc : ((N.toNat : ℕ) : ℝ) = (N : ℝ) := by
      have : ((N.toNat : ℕ) : ℤ) = N := Int.toNat_of_nonneg (by omega)
      exact_mod_cast this
    have hN : (N : ℝ) ≠ 0 := by have : N ≠ 0 := by omega
                                exact_mod_cast this
    rw [hc]; unfold coord
    cases mp
    · simp
    · simp only [if_true]; field_simp; ring
  · rw [if_neg hw] at h ⊢
    rw [if_neg hw, if_neg (by omega)]
    congr 1
    unfold linspaceClosed
    refine List.map_congr_left fun i _ => ?_
    have hc : (((N + 1).toNat - 1 : ℕ) : ℝ) = (N : ℝ) := by
      have : (((N + 1).toNat - 1 : ℕ) : ℤ) = N := by omega
      exact_mod_cast this
    rw [hc]; unfold coord
    have : mp = false := by cases mp <;> simp_all
    rw [this]; simp

theorem stepOf_map (f : ℕ → ℝ) (m : ℕ) (h : 2 ≤ m) : stepOf ((List.range m).map f) = .ok (f 1 - f 0) := by
  obtain ⟨k, rfl⟩ : ∃ k, m = k + 2 := ⟨m - 2, by omega⟩
  rw [List.range_succ_eq_map, List.range_succ_eq_map]
  simp [stepOf]

theorem coord_step (N : ℤ) (mp : Bool) (r : ℝ × ℝ) : coord N mp r 1 - coord N mp r 0 = (r.2 - r.1) / N := by
  unfold coord; push_cast; ring

theorem axis_few (N : ℤ) (w mp : Bool) (r : ℝ × ℝ) (h : count N w mp < 2) (h0 : 0 ≤ count N w mp) (hz : ¬ (mp = true ∧ N = 0)) :
    ∃ l, axis N w mp r = .ok l ∧ l.length < 2 := by
  unfold count at h h0
  unfold axis
  by_cases hw : (w || mp) = true
  · rw [if_pos hw] at h h0 ⊢
    rw [if_neg (by omega), if_neg (by simp; intro h; simpa [h] using hz)]
    exact ⟨_, rfl, by unfold linspaceOpen; rw [List.length_map, List.length_range]; omega⟩
  · rw [if_neg hw] at h h0 ⊢
    rw [if_neg (by omega)]
    exact ⟨_, rfl, by unfold linspaceClosed; rw [List.length_map, List.length_range]; omega⟩

theorem axis_neg (N : ℤ) (w mp : Bool) (r : ℝ × ℝ) (h : count N w mp < 0) : axis N w mp r = .error .valueError := by
  unfold count at h
  unfold axis
  by_cases hw : (w || mp) = true
  · rw [if_pos hw] at h ⊢
    rw [if_pos h]
  · rw [if_neg hw] at h ⊢
    rw [if_pos h]

theorem axis_zero (w : Bool) (r : ℝ × ℝ) : axis 0 w true r = .error .zeroDivision := by
  unfold axis; simp

theorem stepOf_few (l : List ℝ) (h : l.length < 2) : stepOf l = .error .indexError := by
  match l with
  | [] => rfl
  | [x] => rfl
  | x :: y :: l => simp at h

/-- What follows once the axes and the lattice are fine. -/
noncomputable def rest {n : ℕ} (pinv : M3 → M3) (rnd : Fin 20 → V3) (md : Model n) (a : Args) (rx ry rz : ℝ × ℝ) (ks : List V3) (st : V3) :
    Except Err (Dos n) := do
  match a.check with
    | none => .ok ()
    | some t => periodicCheck md a.A rnd t
  let bands ← evalBands md a.smearing a.useGradients ks
  let kind ← kindOf a.smearing a.useGradients
  .ok ⟨(rx.2 - rx.1) * (ry.2 - ry.1) * (rz.2 - rz.1), st, ks, bands, bandsRange pinv md st ks bands, kind⟩

/-- The points. -/
noncomputable def ksOf (a : Args) (rx ry rz : ℝ × ℝ) : List V3 :=
  grid a.A ((List.range (count a.N a.wrap a.midpoint).toNat).map (coord a.N a.midpoint rx))
    ((List.range (count a.N a.wrap a.midpoint).toNat).map (coord a.N a.midpoint ry))
    ((List.range (count a.N a.wrap a.midpoint).toNat).map (coord a.N a.midpoint rz))

theorem init_good {n : ℕ} (pinv : M3 → M3) (rnd : Fin 20 → V3) (md : Model n) (a : Args) (rx ry rz : ℝ × ℝ) (hr : a.ranges = [rx, ry, rz])
    (hN : 2 ≤ count a.N a.wrap a.midpoint) (hA : a.A.det ≠ 0) :
    init pinv rnd md a = rest pinv rnd md a rx ry rz (ksOf a rx ry rz)
      ![(rx.2 - rx.1) / a.N, (ry.2 - ry.1) / a.N, (rz.2 - rz.1) / a.N] := by
  have hm : 2 ≤ (count a.N a.wrap a.midpoint).toNat := by omega
  unfold init
  rw [hr]
  simp only [axis_ok _ _ _ _ hN, stepOf_map _ _ hm, coord_step, bind, Except.bind, if_neg hA]
  rfl

theorem init_ok {n : ℕ} (pinv : M3 → M3) (rnd : Fin 20 → V3) (md : Model n) (a : Args) (d : Dos n) (h : init pinv rnd md a = .ok d) :
    ∃ rx ry rz, a.ranges = [rx, ry, rz] ∧ 2 ≤ count a.N a.wrap a.midpoint ∧ a.A.det ≠ 0 := by
  unfold init at h
  split at h
  · rename_i rx ry rz hr
    refine ⟨rx, ry, rz, hr, ?_, ?_⟩
    · by_contra hc
      by_cases h0 : 0 ≤ count a.N a.wrap a.midpoint
      · by_cases hz : a.midpoint = true ∧ a.N = 0
        · rw [hz.1, hz.2, axis_zero] at h; simp [bind, Except.bind] at h
        · obtain ⟨l, hl, hl2⟩ := axis_few a.N a.wrap a.midpoint rx (by omega) h0 hz
          obtain ⟨l', hl', _⟩ := axis_few a.N a.wrap a.midpoint ry (by omega) h0 hz
          obtain ⟨l'', hl'', _⟩ := axis_few a.N a.wrap a.midpoint rz (by omega) h0 hz
          rw [hl, hl', hl''] at h
          simp [bind, Except.bind, stepOf_few l hl2] at h
      · rw [axis_neg _ _ _ _ (by omega)] at h; simp [bind, Except.bind] at h
    · intro hA
      simp only [if_pos hA, bind, Except.bind] at h
      repeat' (split at h <;> try exact absurd h (by simp))
  · exact absurd h (by simp)

theorem rest_ok {n : ℕ} {pinv : M3 → M3} {rnd : Fin 20 → V3} {md : Model n} {a : Args} {rx ry rz : ℝ × ℝ} {ks : List V3} {st : V3} {d : Dos n}
    (h : rest pinv rnd md a rx ry rz ks st = .ok d) :
    ∃ bands kind, evalBands md a.smearing a.useGradients ks = .ok bands ∧ kindOf a.smearing a.useGradients = .ok kind ∧
      d = ⟨(rx.2 - rx.1) * (ry.2 - ry.1) * (rz.2 - rz.1), st, ks, bands, bandsRange pinv md st ks bands, kind⟩ ∧
      (∀ t, a.check = some t → periodicCheck md a.A rnd t = .ok ()) := by
  unfold rest at h
  have hc : ∀ t, a.check = some t → periodicCheck md a.A rnd t = .ok () := by
    intro t ht
    rw [ht] at h
    cases hp : periodicCheck md a.A rnd t with
    | ok u => rfl
    | error e => simp [hp, bind, Except.bind] at h
  have h' : (do
      let bands ← evalBands md a.smearing a.useGradients ks
      let kind ← kindOf a.smearing a.useGradients
      .ok ⟨(rx.2 - rx.1) * (ry.2 - ry.1) * (rz.2 - rz.1), st, ks, bands, bandsRange pinv md st ks bands, kind⟩ : Except Err (Dos n)) = .ok d := by
    cases ha : a.check with
    | none => rw [ha] at h; exact h
    | some t => rw [ha] at h; simp only [hc t ha] at h; exact h
  cases hb : evalBands md a.smearing a.useGradients ks with
  | error e => simp [hb, bind, Except.bind] at h'
  | ok bands =>
    cases hk : kindOf a.smearing a.useGradients with
    | error e => simp [hb, hk, bind, Except.bind] at h'
    | ok kind =>
      refine ⟨bands, kind, rfl, rfl, ?_, hc⟩
      simp only [hb, hk, bind, Except.bind] at h'
      exact (Except.ok.inj h').symm

/-! ## The grid -/

theorem grid_length (A : M3) (x y z : List ℝ) : (grid A x y z).length = x.length * (y.length * z.length) := by
  simp [grid, List.length_flatMap]

theorem grid_get (A : M3) (x y z : List ℝ) (i j l : ℕ) (a b c : ℝ) (ha : x[i]? = some a) (hb : y[j]? = some b) (hc : z[l]? = some c) :
    (grid A x y z)[(i * y.length + j) * z.length + l]? = some (Matrix.vecMul ![a, b, c] A⁻¹) := by
  have hj : j < y.length := (List.getElem?_eq_some_iff.1 hb).1
  have hl : l < z.length := (List.getElem?_eq_some_iff.1 hc).1
  have h1 : (i * y.length + j) * z.length + l = i * (y.length * z.length) + (j * z.length + l) := by ring
  unfold grid
  rw [h1, getElem?_flatMap_block _ (y.length * z.length) x (fun a _ => by simp [List.length_flatMap]) i (j * z.length + l) ?_ a ha,
    getElem?_flatMap_block _ z.length y (fun a _ => by simp) j l hl b hb]
  · simp [hc]
  · calc j * z.length + l < j * z.length + z.length := by omega
      _ = (j + 1) * z.length := by ring
      _ ≤ y.length * z.length := Nat.mul_le_mul_right _ hj

theorem mem_grid (A : M3) (x y z : List ℝ) (k : V3) :
    k ∈ grid A x y z ↔ ∃ a ∈ x, ∃ b ∈ y, ∃ c ∈ z, k = Matrix.vecMul ![a, b, c] A⁻¹ := by
  simp only [grid, List.mem_flatMap, List.mem_map]
  constructor
  · rintro ⟨a, ha, b, hb, c, hc, rfl⟩; exact ⟨a, ha, b, hb, c, hc, rfl⟩
  · rintro ⟨a, ha, b, hb, c, hc, rfl⟩; exact ⟨a, ha, b, hb, c, hc, rfl⟩

/-! ## The first extremal position -/

theorem argBest_spec_aux (better : ℝ → ℝ → Prop) [DecidableRel better] (ht : ∀ a b c, better a b → ¬ better c b → ¬ better c a)
    (hi : ∀ a, ¬ better a a) (hw : ∀ a b c, better a b → ¬ better c b → better a c) :
    ∀ v : List ℝ, v ≠ [] → ∃ (p : ℕ) (b : ℝ),
      v.zipIdx.foldl (fun (s : ℕ × Option ℝ) p =>
        match s.2 with
        | none => (p.2, some p.1)
        | some b => if better p.1 b then (p.2, some p.1) else s) (0, none) = (p, some b) ∧
      v[p]? = some b ∧ (∀ c ∈ v, ¬ better c b) ∧ ∀ q c, q < p → v[q]? = some c → better b c := by
  intro v
  induction v using List.reverseRecOn with
  | nil => intro h; exact absurd rfl h
  | append_singleton v x ih =>
    intro _
    rw [List.zipIdx_append, List.foldl_append]
    by_cases hv : v = []
    · subst hv
      exact ⟨0, x, rfl, rfl, by simpa using hi x, by intro q c hq; omega⟩
    · obtain ⟨p, b, h1, h2, h3, h4⟩ := ih hv
      rw [h1]
      have hp : p < v.length := (List.getElem?_eq_some_iff.1 h2).1
      by_cases hx : better x b
      · refine ⟨v.length, x, by simp [hx], by simp, ?_, ?_⟩
        · intro c hc
          rcases List.mem_append.1 hc with hc | hc
          · exact ht x b c hx (h3 c hc)
          · rw [List.mem_singleton.1 hc]; exact hi x
        · intro q c hq hc
          rw [List.getElem?_append_left hq] at hc
          exact hw x b c hx (h3 c (List.mem_of_getElem? hc))
      · refine ⟨p, b, by simp [hx], by rw [List.getElem?_append_left hp]; exact h2, ?_, ?_⟩
        · intro c hc
          rcases List.mem_append.1 hc with hc | hc
          · exact h3 c hc
          · rw [List.mem_singleton.1 hc]; exact hx
        · intro q c hq hc
          rw [List.getElem?_append_left (by omega)] at hc
          exact h4 q c hq hc

theorem argMin_spec (v : List ℝ) (hv : v ≠ []) :
    ∃ b, v[argBest (· < ·) v]? = some b ∧ (∀ c ∈ v, b ≤ c) ∧ ∀ q c, q < argBest (· < ·) v → v[q]? = some c → b < c := by
  obtain ⟨p, b, h1, h2, h3, h4⟩ := argBest_spec_aux (· < ·) (fun a b c hab hcb h => hcb (h.trans hab)) (fun a => lt_irrefl a)
    (fun a b c hab hcb => lt_of_lt_of_le hab (not_lt.1 hcb)) v hv
  have : argBest (· < ·) v = p := congrArg Prod.fst h1
  rw [this]
  exact ⟨b, h2, fun c hc => not_lt.1 (h3 c hc), h4⟩

theorem argMax_spec (v : List ℝ) (hv : v ≠ []) :
    ∃ b, v[argBest (· > ·) v]? = some b ∧ (∀ c ∈ v, c ≤ b) ∧ ∀ q c, q < argBest (· > ·) v → v[q]? = some c → c < b := by
  obtain ⟨p, b, h1, h2, h3, h4⟩ := argBest_spec_aux (· > ·) (fun a b c hab hcb h => hcb (hab.trans h)) (fun a => lt_irrefl a)
    (fun a b c hab hcb => lt_of_le_of_lt (not_lt.1 hcb) hab) v hv
  have : argBest (· > ·) v = p := congrArg Prod.fst h1
  rw [this]
  exact ⟨b, h2, fun c hc => not_lt.1 (h3 c hc), h4⟩

end TB.DosInit
