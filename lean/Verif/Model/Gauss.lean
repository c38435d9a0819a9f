import Mathlib.Analysis.SpecialFunctions.Log.Basic

/-!
# Model of `gauss_5_df`, `gauss_7_df`, `gauss_4_f`, `gauss_6_f` (density_of_states.py 13-46)

The tables are the decimal numbers of the source (floating point rounding left out).  `f` has real values; for arrays it acts on every component.
-/

namespace TB.Gauss

/-- A table: the node in the centre has the weight `w0`, the others come in pairs `±x` with equal weights. -/
structure Rule where
  w0 : ℚ
  pairs : List (ℚ × ℚ)

/-- `np.sum(f(x / beta + mu) * w)`. -/
noncomputable def Rule.sum (r : Rule) (f : ℝ → ℝ) (mu beta : ℝ) : ℝ :=
  r.w0 * f (0 / beta + mu) + (r.pairs.map fun p => (p.2 : ℝ) * (f (-(p.1 : ℝ) / beta + mu) + f ((p.1 : ℝ) / beta + mu))).sum

/-- The table in `gauss_5_df` (density_of_states.py 15-16). -/
def rule5 : Rule := ⟨6709254709254709216 / 10 ^ 19,
  [(8211650879369324585 / 10 ^ 18, 18831678927720540279 / 10 ^ 22), (3054894371595123559 / 10 ^ 18, 16265409664449248517 / 10 ^ 20)]⟩

/-- The table in `gauss_7_df` (density_of_states.py 24-25). -/
def rule7 : Rule := ⟨61940361986673598773 / 10 ^ 20,
  [(13208619179276130495 / 10 ^ 18, 15006783863250833195 / 10 ^ 24), (6822258565704534483 / 10 ^ 18, 54715468031045289346 / 10 ^ 22),
    (274015863439980345 / 10 ^ 17, 18481163647966422636 / 10 ^ 20)]⟩

/-- The table in `gauss_4_f` (density_of_states.py 33-34). -/
def rule4 : Rule := ⟨0,
  [(57755299052817408167 / 10 ^ 19, 13822390808990555472 / 10 ^ 21), (13141165029468411252 / 10 ^ 19, 48617760919100944106 / 10 ^ 20)]⟩

/-- The table in `gauss_6_f` (density_of_states.py 42-43). -/
def rule6 : Rule := ⟨0,
  [(10612971636582431145 / 10 ^ 18, 13527426019966680491 / 10 ^ 23), (47544317516063152596 / 10 ^ 19, 2778699826589691238 / 10 ^ 20),
    (11799810705877835648 / 10 ^ 19, 47207772747390341905 / 10 ^ 20)]⟩

/-- `gauss_5_df` (density_of_states.py 13-19). -/
noncomputable def gauss5df (f : ℝ → ℝ) (mu beta : ℝ) : ℝ := rule5.sum f mu beta
/-- `gauss_7_df` (density_of_states.py 22-28). -/
noncomputable def gauss7df (f : ℝ → ℝ) (mu beta : ℝ) : ℝ := rule7.sum f mu beta
/-- `gauss_4_f` (density_of_states.py 31-37). -/
noncomputable def gauss4f (f : ℝ → ℝ) (mu beta : ℝ) : ℝ := rule4.sum f mu beta / beta * 2 * Real.log 2
/-- `gauss_6_f` (density_of_states.py 40-46). -/
noncomputable def gauss6f (f : ℝ → ℝ) (mu beta : ℝ) : ℝ := rule6.sum f mu beta / beta * 2 * Real.log 2

end TB.Gauss
