import Verif.Model.FermiSurface
import Mathlib.Algebra.Order.Field.Basic
import Mathlib.Algebra.Order.Ring.Rat
import Mathlib.Data.List.FinRange
import Mathlib.Data.Fin.VecNotation
import Mathlib.Tactic.Linarith

/-!
# C41: `fermi_surface` returns exactly the bands that cross the Fermi energy
-/

namespace TB.FS
variable {K : Type} [Field K] [LinearOrder K] [IsStrictOrderedRing K] {P : Type} {m : ℕ}

/-- Band `i` has a sample strictly below and one strictly above the energy. -/
def Spec.Crosses (model : P → Fin m → K) (eF : K) (ks : List P) (i : Fin m) : Prop :=
  (∃ k ∈ ks, model k i < eF) ∧ ∃ k ∈ ks, eF < model k i

theorem foldl_select {α β : Type} (q : α → Bool) (f : α → β) (l : List α) (acc : List β × List α) :
    l.foldl (fun (acc : List β × List α) i => if q i then (acc.1 ++ [f i], acc.2 ++ [i]) else acc) acc =
      (acc.1 ++ (l.filter q).map f, acc.2 ++ l.filter q) := by
  induction l generalizing acc with
  | nil => simp
  | cons a l ih =>
    rw [List.foldl_cons, ih]
    by_cases h : q a
    · simp [h]
    · simp [h]

theorem crosses_iff (model : P → Fin m → K) (eF : K) (ks : List P) (i : Fin m) :
    (anyPos ((ks.map fun k i => model k i - eF).map fun r => r i) && anyNeg ((ks.map fun k i => model k i - eF).map fun r => r i)) = true ↔
      Spec.Crosses model eF ks i := by
  simp only [anyPos, anyNeg, Bool.and_eq_true, List.any_eq_true, List.map_map, List.mem_map, decide_eq_true_eq, Function.comp,
    exists_exists_and_eq_and, Spec.Crosses]
  constructor
  · rintro ⟨⟨k, hk, h⟩, k', hk', h'⟩
    exact ⟨⟨k', hk', by linarith⟩, k, hk, by linarith⟩
  · rintro ⟨⟨k, hk, h⟩, k', hk', h'⟩
    exact ⟨⟨k', hk', by linarith⟩, k, hk, by linarith⟩

/-- C41.  With at least one sample the call returns.  The band indices are increasing, a band is listed exactly if it crosses the
Fermi energy, and the volume next to a band index is the list of its energies relative to the Fermi energy, in the order of the
samples. -/
theorem C41_bands (model : P → Fin m → K) (eF : K) (ks : List P) (h : ks ≠ []) :
    ∃ vols idx, fermiSurface model eF ks = .ok (vols, idx) ∧ idx.Pairwise (· < ·) ∧
      (∀ i, i ∈ idx ↔ Spec.Crosses model eF ks i) ∧
      vols = idx.map fun i => ks.map fun k => model k i - eF := by
  obtain ⟨k, ks, rfl⟩ := List.exists_cons_of_ne_nil h
  have e : fermiSurface model eF (k :: ks) = .ok ((List.finRange m).foldl (fun (acc : List (List K) × List (Fin m)) i =>
      if anyPos (((k :: ks).map fun k i => model k i - eF).map fun r => r i) && anyNeg (((k :: ks).map fun k i => model k i - eF).map fun r => r i)
      then (acc.1 ++ [((k :: ks).map fun k i => model k i - eF).map fun r => r i], acc.2 ++ [i]) else acc) ([], [])) := rfl
  rw [e, foldl_select (fun i => anyPos (((k :: ks).map fun k i => model k i - eF).map fun r => r i) &&
    anyNeg (((k :: ks).map fun k i => model k i - eF).map fun r => r i)) (fun i => ((k :: ks).map fun k i => model k i - eF).map fun r => r i)]
  refine ⟨_, _, rfl, ?_, ?_, ?_⟩
  · rw [List.nil_append]
    exact (List.pairwise_lt_finRange m).filter _
  · intro i
    rw [List.nil_append, List.mem_filter, crosses_iff]
    exact ⟨fun h => h.2, fun h => ⟨List.mem_finRange i, h⟩⟩
  · simp only [List.nil_append, List.map_map, Function.comp_def]

omit [IsStrictOrderedRing K] in
/-- C41.  Without samples it raises `IndexError`. -/
theorem C41_empty (model : P → Fin m → K) (eF : K) : fermiSurface model eF [] = .error .indexError := rfl

/-- A band that only touches the Fermi energy is not returned. -/
example : okAnd (fermiSurface (fun k : ℚ => ![k, k * k, k + 5]) 0 [-1, 0, 2]) (fun r => r = ([[-1, 0, 2]], [0])) = true := by decide +kernel

example : okAnd (fermiSurface (fun k : ℚ => ![k, 1 - k * k]) (1 / 2) [0, 1]) (fun r => r = ([[-1 / 2, 1 / 2], [1 / 2, -1 / 2]], [0, 1])) = true := by
  decide +kernel

end TB.FS
