import Verif.Lemmas.QeBinary
import Mathlib.Tactic.FinCases
import Mathlib.Tactic.NormNum
import Mathlib.LinearAlgebra.Matrix.Determinant.Basic

/-!
# C129, C130: the binary files of Quantum Espresso

`read_wavefunctions` and `read_charge_density` against the documented layout of the files (`Verif/Spec/QeFiles.lean`).
-/

namespace TB.PropsQeBin
open TB TB.QeBin TB.Spec.Qe

/-! ## C129: `read_wavefunctions` -/

/-- **C129.** For files in the documented layout with one lattice and k-point numbers between 1 and the number of files, entry `j` holds
exactly the numbers of the last listed file with number `j + 1`; if no file has that number, silently those of the first file. -/
theorem C129_read_wavefunctions (c : Codec) (dir : List (List Char × Bytes)) (fs : List (WaveFile × ℕ × ℕ × ℕ)) (B : Mat ℝ 3)
    (hdir : wfcFiles dir = fs.map fun f => f.1.bytes)
    (hok : ∀ f ∈ fs, f.1.Ok c.i32 f.2.1 f.2.2.1 f.2.2.2 ∧ columns c.f64 f.1.b1 f.1.b2 f.1.b3 = B) (hB : B.det ≠ 0)
    (hne : fs ≠ []) (hik : ∀ f ∈ fs, 1 ≤ c.i32 f.1.ik ∧ c.i32 f.1.ik ≤ fs.length) :
    ∃ out, readWavefunctions c dir = .ok out ∧ out.length = fs.length ∧ ∀ j < fs.length, ∃ i f o, fs[i]? = some f ∧
      out[j]? = some o ∧ f.1.Says c.i32 c.f64 B f.2.1 f.2.2.1 f.2.2.2 o ∧
      ((c.i32 f.1.ik = j + 1 ∧ ∀ i' f', i < i' → fs[i']? = some f' → c.i32 f'.1.ik ≠ j + 1) ∨
       (i = 0 ∧ ∀ f' ∈ fs, c.i32 f'.1.ik ≠ j + 1)) := by
  obtain ⟨out, h1, h2, h3⟩ := readWavefunctions_ok c dir fs B hdir hok hB hne hik
  refine ⟨out, h1, h2, fun j hj => ?_⟩
  obtain ⟨i, f, hf, ho, hc⟩ := h3 j hj
  exact ⟨i, f, _, hf, ho, entryOf_says c hB (hok f (List.mem_of_getElem? hf)).1, hc⟩

/-- **C129.** If the numbers of the files are 1, …, n in any order, the result does not depend on the order in which the directory lists
the files, nor on the other files. -/
theorem C129_order (c : Codec) (dir dir' : List (List Char × Bytes)) (fs fs' : List (WaveFile × ℕ × ℕ × ℕ)) (B : Mat ℝ 3)
    (hdir : wfcFiles dir = fs.map fun f => f.1.bytes) (hdir' : wfcFiles dir' = fs'.map fun f => f.1.bytes) (hp : fs'.Perm fs)
    (hok : ∀ f ∈ fs, f.1.Ok c.i32 f.2.1 f.2.2.1 f.2.2.2 ∧ columns c.f64 f.1.b1 f.1.b2 f.1.b3 = B) (hB : B.det ≠ 0)
    (hne : fs ≠ []) (hik : (fs.map fun f => c.i32 f.1.ik).Perm ((List.range fs.length).map fun j : ℕ => (j : ℤ) + 1)) :
    ∃ out, readWavefunctions c dir = .ok out ∧ readWavefunctions c dir' = .ok out := by
  have hr : ∀ f ∈ fs, 1 ≤ c.i32 f.1.ik ∧ c.i32 f.1.ik ≤ fs.length := by
    intro f hf
    have := hik.mem_iff.1 (List.mem_map.2 ⟨f, hf, rfl⟩)
    obtain ⟨j, hj, e⟩ := List.mem_map.1 this
    have := List.mem_range.1 hj
    omega
  obtain ⟨out, h1, h2, h3⟩ := readWavefunctions_ok c dir fs B hdir hok hB hne hr
  obtain ⟨out', h1', h2', h3'⟩ := readWavefunctions_ok c dir' fs' B hdir' (fun f hf => hok f (hp.mem_iff.1 hf)) hB
    (fun h => hne (by subst h; exact hp.nil_eq.symm)) (fun f hf => by rw [hp.length_eq]; exact hr f (hp.mem_iff.1 hf))
  refine ⟨out, h1, ?_⟩
  rw [h1']
  congr 1
  have hnd : (fs.map fun f => c.i32 f.1.ik).Nodup := by
    refine hik.nodup_iff.2 (List.Nodup.map ?_ List.nodup_range)
    intro a b hab
    simpa using hab
  apply List.ext_getElem?
  intro j
  by_cases hj : j < fs.length
  · have hmem : ∃ f ∈ fs, c.i32 f.1.ik = (j : ℤ) + 1 := by
      have := hik.mem_iff.2 (List.mem_map.2 ⟨j, List.mem_range.2 hj, rfl⟩)
      exact List.mem_map.1 this
    obtain ⟨f0, hf0, hfj⟩ := hmem
    obtain ⟨i, f, hf, ho, hc⟩ := h3 j hj
    obtain ⟨i', f', hf', ho', hc'⟩ := h3' j (by rw [hp.length_eq]; exact hj)
    rw [ho, ho']
    have e1 : c.i32 f.1.ik = (j : ℤ) + 1 := by
      rcases hc with h | h
      · exact h.1
      · exact absurd hfj (h.2 f0 hf0)
    have e2 : c.i32 f'.1.ik = (j : ℤ) + 1 := by
      rcases hc' with h | h
      · exact h.1
      · exact absurd hfj (h.2 f0 (hp.mem_iff.2 hf0))
    rw [List.inj_on_of_nodup_map hnd (hp.mem_iff.1 (List.mem_of_getElem? hf')) (List.mem_of_getElem? hf) (e2.trans e1.symm)]
  · rw [List.getElem?_eq_none (l := out) (by omega), List.getElem?_eq_none (l := out') (by rw [h2', hp.length_eq]; omega)]

/-- **C129.** Without such files: `IndexError` (the later `assert B is not None` is never reached). -/
theorem C129_no_files (c : Codec) (dir : List (List Char × Bytes)) (h : wfcFiles dir = []) :
    readWavefunctions c dir = .error .indexError := by
  rw [readWavefunctions, wfcFiles_eq, h]
  rfl

theorem readWave_other (c : Codec) {w : WaveFile} {ng np nb : ℕ} (h : w.Ok c.i32 ng np nb) (B : Mat ℝ 3)
    (hB : columns c.f64 w.b1 w.b2 w.b3 ≠ B) : readWave c (some B) w.bytes = .error .assertionError := by
  have e : w.bytes = w.m1.pre ++ (w.ik ++ (w.xk.flatten ++ (w.ispin ++ (w.gamma ++ (w.scalef ++ (w.m1.post ++ (w.m2.pre ++
      (w.ngw ++ (w.igwx ++ (w.npol ++ (w.nbnd ++ (w.m2.post ++ (w.m3.pre ++ (w.b1.flatten ++ (w.b2.flatten ++ (w.b3.flatten ++
      (w.m3.post ++ (w.m4.pre ++ (w.mill.flatten ++ (w.m4.post ++ recordsOf w.bands)))))))))))))))))))) := by
    simp [WaveFile.bytes, record, List.append_assoc]
  rw [e, readWave, drop_mark h.m1.1]
  simp only [scalar_append h.ik, bind, Except.bind, items_append h.xk, scalar_append h.ispin, scalar_append h.gamma, scalar_append h.scalef,
    drop_two h.m1.2 h.m2.1, scalar_append h.ngw, scalar_append h.igwx.1, scalar_append h.npol.1, scalar_append h.nbnd.1,
    drop_two h.m2.2 h.m3.1, lattice_append c h.b1 h.b2 h.b3]
  rw [if_pos]
  simp [otherLattice, Ne.symm hB]

/-- **C129.** A file with another lattice than the files before it: `AssertionError`, whatever follows. -/
theorem C129_other_lattice (c : Codec) (dir : List (List Char × Bytes)) (fs : List (WaveFile × ℕ × ℕ × ℕ)) (B : Mat ℝ 3)
    (g : WaveFile) (ng np nb : ℕ) (rest : List Bytes) (hdir : wfcFiles dir = (fs.map fun f => f.1.bytes) ++ g.bytes :: rest)
    (hok : ∀ f ∈ fs, f.1.Ok c.i32 f.2.1 f.2.2.1 f.2.2.2 ∧ columns c.f64 f.1.b1 f.1.b2 f.1.b3 = B) (hne : fs ≠ [])
    (hg : g.Ok c.i32 ng np nb) (hgB : columns c.f64 g.b1 g.b2 g.b3 ≠ B) :
    readWavefunctions c dir = .error .assertionError := by
  have key : ∀ (fs : List (WaveFile × ℕ × ℕ × ℕ)) (B0 : Option (Mat ℝ 3)),
      (∀ f ∈ fs, f.1.Ok c.i32 f.2.1 f.2.2.1 f.2.2.2 ∧ columns c.f64 f.1.b1 f.1.b2 f.1.b3 = B) → (∀ b, B0 = some b → b = B) →
      (fs ≠ [] ∨ B0 = some B) →
      readWaves c B0 ((fs.map fun f => f.1.bytes) ++ g.bytes :: rest) = .error .assertionError := by
    intro fs
    induction fs with
    | nil =>
      intro B0 _ _ h
      have : B0 = some B := h.resolve_left (by simp)
      subst this
      rw [List.map_nil, List.nil_append, readWaves, readWave_other c hg B hgB]
      rfl
    | cons f fs ih =>
      intro B0 hf hB0 _
      obtain ⟨h1, h2⟩ := hf f (by simp)
      rw [List.map_cons, List.cons_append, readWaves, readWave_ok c h1 B0 fun b hb => (hB0 b hb).trans h2.symm]
      simp only [bind, Except.bind, h2]
      rw [ih (some B) (fun g hg => hf g (by simp [hg])) (by rintro b ⟨⟩; rfl) (Or.inr rfl)]
  rw [readWavefunctions, wfcFiles_eq, hdir, key fs none hok (by simp) (Or.inl hne)]
  rfl

/-- **C129.** A k-point number above the number of files (files are missing): `IndexError`. -/
theorem C129_missing_files (c : Codec) (dir : List (List Char × Bytes)) (fs : List (WaveFile × ℕ × ℕ × ℕ)) (B : Mat ℝ 3)
    (hdir : wfcFiles dir = fs.map fun f => f.1.bytes)
    (hok : ∀ f ∈ fs, f.1.Ok c.i32 f.2.1 f.2.2.1 f.2.2.2 ∧ columns c.f64 f.1.b1 f.1.b2 f.1.b3 = B)
    (h : ∃ f ∈ fs, (fs.length : ℤ) < c.i32 f.1.ik) : readWavefunctions c dir = .error .indexError := by
  obtain ⟨f, hf, hlt⟩ := h
  have hr := readWaves_ok c fs B hok none (by simp)
  have ho : (fs.map fun f => waveOf c f.1 f.2.1 f.2.2.1).map Wave.ik = fs.map fun f => c.i32 f.1.ik := by
    rw [List.map_map]
    rfl
  rw [readWavefunctions, wfcFiles_eq, hdir, hr]
  simp only [bind, Except.bind]
  rw [ho]
  have hi : invOrder (fs.map fun f => c.i32 f.1.ik) = .error .indexError := by
    rw [invOrder]
    have hne : (fs.map fun f => c.i32 f.1.ik) ≠ [] := by
      simp only [ne_eq, List.map_eq_nil_iff]
      rintro rfl
      simp at hf
    rw [if_neg hne]
    have key : ∀ (n : ℕ) (l : List ℤ), (∃ z ∈ l, (n : ℤ) < z) → (l.mapM fun z => pyIdx n (z - 1)) = none := by
      intro n l
      induction l with
      | nil => simp
      | cons z l ih =>
        rintro ⟨y, hy, hny⟩
        rw [List.mapM_cons]
        rcases List.mem_cons.1 hy with rfl | hy
        · have : pyIdx n (y - 1) = none := by rw [pyIdx, if_pos (by omega), if_neg (by omega)]
          rw [this]
          rfl
        · rw [ih ⟨y, hy, hny⟩]
          cases pyIdx n (z - 1) <;> rfl
    rw [key _ _ ⟨_, List.mem_map.2 ⟨f, hf, rfl⟩, by simpa using hlt⟩]
  rw [hi]

/-- **C129 (disagreement).** Quantum Espresso writes the coefficients of the second polarisation after all of the first, i.e. that of
polarisation `p` and vector `g` at place `p * N_G + g`.  With two polarisations and at least two vectors the returned coefficient of the
first vector and second polarisation is that of the *second vector and first polarisation*; with one polarisation the places agree. -/
theorem C129_defect_polarisation (c : Codec) (B : Mat ℝ 3) (w : WaveFile) (ng np nb : ℕ)
    (o : (Fin 3 → ℝ) × List (List ℤ) × List (List (List ℂ))) (ho : w.Says c.i32 c.f64 B ng np nb o)
    (ψ : ℕ → ℕ → Word) (n : ℕ) (r : Marks × List Word) (hr : w.bands[n]? = some r)
    (hψ : ∀ p < np, ∀ g < ng, r.2[p * ng + g]? = some (ψ p g)) :
    (np = 1 → ∀ g < ng, ((o.2.2[n]?.bind (·[g]?)).bind (·[0]?)) = some (complexOf c.f64 (ψ 0 g))) ∧
    (np = 2 → 2 ≤ ng → ((o.2.2[n]?.bind (·[0]?)).bind (·[1]?)) = some (complexOf c.f64 (ψ 0 1))) := by
  obtain ⟨_, _, _, _, h⟩ := ho
  obtain ⟨coeff, hc, _, hg⟩ := h n r hr
  constructor
  · rintro rfl g hgn
    obtain ⟨row, h1, _, h2⟩ := hg g hgn
    have := hψ 0 (by omega) g hgn
    rw [hc, Option.bind_some, h1, Option.bind_some, h2 0 (by omega)]
    simp only [mul_one, add_zero, zero_mul, zero_add] at this ⊢
    rw [this, Option.map_some]
  · rintro rfl hng
    obtain ⟨row, h1, _, h2⟩ := hg 0 (by omega)
    have := hψ 0 (by omega) 1 (by omega)
    rw [hc, Option.bind_some, h1, Option.bind_some, h2 1 (by omega)]
    simp only [zero_mul, zero_add] at this ⊢
    rw [this, Option.map_some]

/-! ## C130: `read_charge_density` -/

theorem readChargeDensity_ok (c : Codec) {w : ChargeFile} {ng ns : ℕ} (h : w.Ok c.i32 ng ns) {out : List (List ℂ)}
    (ho : records c ng ns (w.m3.post ++ recordsOf w.spins) = .ok out) :
    readChargeDensity c w.bytes = .ok ((rows 3 ng (w.mill.map c.i32)).map fun m =>
      (columns c.f64 w.b1 w.b2 w.b3).mulVec fun i => (m.getD i.val 0 : ℝ), out.map fun r => r.map Complex.re) := by
  have e : w.bytes = w.m1.pre ++ (w.gamma ++ (w.ngm ++ (w.nspin ++ (w.m1.post ++ (w.m2.pre ++ (w.b1.flatten ++ (w.b2.flatten ++ (w.b3.flatten ++
      (w.m2.post ++ (w.m3.pre ++ (w.mill.flatten ++ (w.m3.post ++ recordsOf w.spins)))))))))))) := by
    simp [ChargeFile.bytes, record, List.append_assoc]
  rw [e, readChargeDensity, drop_mark h.m1.1]
  simp only [scalar_append h.gamma, bind, Except.bind, scalar_append h.ngm.1, scalar_append h.nspin.1, drop_two h.m1.2 h.m2.1,
    lattice_append c h.b1 h.b2 h.b3]
  have hng : (c.i32 w.ngm).toNat = ng := by rw [h.ngm.2]; simp
  have hns : (c.i32 w.nspin).toNat = ns := by rw [h.nspin.2]; simp
  rw [hng, hns]
  simp only [drop_two h.m2.2 h.m3.1, items_append h.mill]
  rw [if_neg (not_not.2 h.mill.1), ho]
  rfl

/-- **C130 (disagreement).** For every file in the documented layout `read_charge_density` returns, but the numbers are read eight bytes
too early and only real parts are kept: the first "coefficient" of a spin is the markers between two records read as a number, the
following ones are the *imaginary* parts of the coefficients before.  The vectors come in cartesian coordinates, not as integers. -/
theorem C130_defect_shift (c : Codec) (w : ChargeFile) (ng ns : ℕ) (h : w.Ok c.i32 ng ns) :
    ∃ gs rho, readChargeDensity c w.bytes = .ok (gs, rho) ∧
      gs.length = ng ∧ (∀ g < ng, ∃ v m0 m1 m2, gs[g]? = some v ∧ w.mill[3 * g]? = some m0 ∧ w.mill[3 * g + 1]? = some m1 ∧
        w.mill[3 * g + 2]? = some m2 ∧ ∀ a : Fin 3, v a = (columns c.f64 w.b1 w.b2 w.b3) a 0 * c.i32 m0 +
          (columns c.f64 w.b1 w.b2 w.b3) a 1 * c.i32 m1 + (columns c.f64 w.b1 w.b2 w.b3) a 2 * c.i32 m2) ∧
      rho.length = ns ∧ ∀ i r, w.spins[i]? = some r → ∃ row, rho[i]? = some row ∧ row.length = ng ∧
        (0 < ng → row[0]? = some (c.f64 ((if i = 0 then w.m3.post else (w.spins.getD (i - 1) r).1.post) ++ r.1.pre))) ∧
        ∀ g, g + 1 < ng → row[g + 1]? = r.2[g]?.map fun x => (complexOf c.f64 x).im := by
  obtain ⟨out, ho, hlen, hget⟩ := records_early c h.count h.spins w.m3.post h.m3.2
  obtain ⟨m1, m2⟩ := rows_spec 3 ng (w.mill.map c.i32) (by rw [List.length_map, h.mill.1, mul_comm])
  refine ⟨_, _, readChargeDensity_ok c h ho, by rw [List.length_map, m1], ?_, by rw [List.length_map, hlen], ?_⟩
  · intro g hg
    obtain ⟨a, b⟩ := m2 g hg
    have hl : w.mill.length = 3 * ng := h.mill.1
    refine ⟨(columns c.f64 w.b1 w.b2 w.b3).mulVec fun i => (((rows 3 ng (w.mill.map c.i32)).getD g []).getD i.val 0 : ℝ), w.mill[3 * g], w.mill[3 * g + 1], w.mill[3 * g + 2], ?_, List.getElem?_eq_getElem (by omega),
      List.getElem?_eq_getElem (by omega), List.getElem?_eq_getElem (by omega), ?_⟩
    · rw [List.getElem?_map, List.getElem?_eq_getElem (by omega), Option.map_some, List.getD_eq_getElem _ _ (by omega)]
    · intro a
      have hb : ∀ p < 3, ∀ hp : 3 * g + p < w.mill.length, ((rows 3 ng (w.mill.map c.i32)).getD g []).getD p 0 = c.i32 w.mill[3 * g + p] := by
        intro p hp hp'
        rw [List.getD_eq_getElem?_getD, b p hp, mul_comm g 3, List.getElem?_map, List.getElem?_eq_getElem hp']
        rfl
      simp only [Matrix.mulVec, dotProduct, Fin.sum_univ_three, Fin.val_zero, Fin.val_one, Fin.val_two]
      rw [hb 0 (by omega) (by omega), hb 1 (by omega) (by omega), hb 2 (by omega) (by omega)]
      rfl
  · intro i r hr
    obtain ⟨q, hq, hrow⟩ := hget i r hr
    rw [List.getElem?_map]
    have hw := (h.spins r (List.mem_of_getElem? hr)).2
    refine ⟨_, hrow, ?_, ?_, ?_⟩
    · simp [hw.1]
    · intro hpos
      rw [← hq, List.getElem?_map, List.getElem?_take_of_lt hpos]
      rfl
    · intro g hg
      rw [List.getElem?_map, List.getElem?_take_of_lt hg, List.getElem?_cons_succ, List.getElem?_map, Option.map_map]
      rfl

/-- **C130 (disagreement).** The real parts of the coefficients never reach the result: two files that differ only in them give the same. -/
theorem C130_defect_real_parts (c : Codec) (w w' : ChargeFile) (ng ns : ℕ) (h : w.Ok c.i32 ng ns) (h' : w'.Ok c.i32 ng ns)
    (hs : w'.spins.map (fun r => (r.1, r.2.map fun x => x.drop 8)) = w.spins.map (fun r => (r.1, r.2.map fun x => x.drop 8)))
    (hrest : w' = { w with spins := w'.spins }) : readChargeDensity c w'.bytes = readChargeDensity c w.bytes := by
  obtain ⟨out, ho, hlen, hget⟩ := records_early c h.count h.spins w.m3.post h.m3.2
  have hm3 : w'.m3 = w.m3 := by rw [hrest]
  obtain ⟨out', ho', hlen', hget'⟩ := records_early c h'.count h'.spins w.m3.post h.m3.2
  rw [readChargeDensity_ok c h ho, readChargeDensity_ok c h' (by rw [hm3]; exact ho')]
  have hmill : w'.mill = w.mill := by rw [hrest]
  have hb1 : w'.b1 = w.b1 := by rw [hrest]
  have hb2 : w'.b2 = w.b2 := by rw [hrest]
  have hb3 : w'.b3 = w.b3 := by rw [hrest]
  rw [hmill, hb1, hb2, hb3]
  congr 2
  apply List.ext_getElem?
  intro i
  rw [List.getElem?_map, List.getElem?_map]
  have hsi : ∀ i : ℕ, (w'.spins[i]?).map (fun r : Marks × List Word => (r.1, r.2.map fun x => x.drop 8)) = (w.spins[i]?).map (fun r : Marks × List Word => (r.1, r.2.map fun x => x.drop 8)) := by
    intro i
    rw [← List.getElem?_map, ← List.getElem?_map, hs]
  by_cases hi : i < ns
  · obtain ⟨r, hr⟩ : ∃ r, w.spins[i]? = some r := ⟨_, List.getElem?_eq_getElem (by rw [h.count]; exact hi)⟩
    obtain ⟨r', hr'⟩ : ∃ r, w'.spins[i]? = some r := ⟨_, List.getElem?_eq_getElem (by rw [h'.count]; exact hi)⟩
    obtain ⟨q, hq, e⟩ := hget i r hr
    obtain ⟨q', hq', e'⟩ := hget' i r' hr'
    have e0 := hsi i
    rw [hr, hr', Option.map_some, Option.map_some, Option.some.injEq, Prod.mk.injEq] at e0
    have hqq : q' = q := by
      rw [hq, hq']
      by_cases hi0 : i = 0
      · rw [if_pos hi0, if_pos hi0]
      · rw [if_neg hi0, if_neg hi0]
        have e2 := hsi (i - 1)
        rw [List.getElem?_eq_getElem (by rw [h'.count]; omega), List.getElem?_eq_getElem (by rw [h.count]; omega), Option.map_some,
          Option.map_some, Option.some.injEq, Prod.mk.injEq] at e2
        rw [List.getD_eq_getElem _ _ (by rw [h'.count]; omega), List.getD_eq_getElem _ _ (by rw [h.count]; omega), e2.1]
    rw [e, e', hqq, e0.1, e0.2]
  · rw [List.getElem?_eq_none (l := out) (by omega), List.getElem?_eq_none (l := out') (by omega)]

/-! ## Concrete files -/

/-- Numbers given by their first byte. -/
noncomputable def exCodec : Codec := ⟨fun w => ((w.headD 0).toNat : ℤ), fun w => ((w.headD 0).toNat : ℝ)⟩
def w4 (x : UInt8) : Word := [x, 0, 0, 0]
def w8 (x : UInt8) : Word := [x, 0, 0, 0, 0, 0, 0, 0]
def exMarks : Marks := ⟨w4 9, w4 9⟩

/-- Two vectors, one polarisation, two bands; number `n`. -/
def exWave (n : UInt8) : WaveFile where
  m1 := exMarks
  ik := w4 n
  xk := [w8 n, w8 0, w8 0]
  ispin := w4 1
  gamma := w4 0
  scalef := w8 1
  m2 := exMarks
  ngw := w4 2
  igwx := w4 2
  npol := w4 1
  nbnd := w4 2
  m3 := exMarks
  b1 := [w8 2, w8 0, w8 0]
  b2 := [w8 0, w8 2, w8 0]
  b3 := [w8 0, w8 0, w8 2]
  m4 := exMarks
  mill := [w4 0, w4 0, w4 0, w4 1, w4 0, w4 0]
  bands := [(exMarks, [w8 1 ++ w8 2, w8 3 ++ w8 4]), (exMarks, [w8 5 ++ w8 6, w8 7 ++ w8 8])]

theorem exWave_ok (n : UInt8) : (exWave n).Ok exCodec.i32 2 1 2 := by
  constructor <;> simp [exWave, Marks.Ok, Words, exMarks, w4, w8, exCodec]

theorem exWave_lattice (n : UInt8) : columns exCodec.f64 (exWave n).b1 (exWave n).b2 (exWave n).b3 = (2 : ℝ) • (1 : Mat ℝ 3) := by
  ext i j
  fin_cases i <;> fin_cases j <;> simp [columns, exWave, exCodec, w8]

theorem wfcFiles_pos {n : List Char} {b : Bytes} {dir : List (List Char × Bytes)} (h : isWfc n = true) :
    wfcFiles ((n, b) :: dir) = b :: wfcFiles dir := by
  rw [← wfcFiles_eq, ← wfcFiles_eq, List.filter_cons_of_pos (by exact h), List.map_cons]

theorem wfcFiles_neg {n : List Char} {b : Bytes} {dir : List (List Char × Bytes)} (h : isWfc n = false) :
    wfcFiles ((n, b) :: dir) = wfcFiles dir := by
  rw [← wfcFiles_eq, ← wfcFiles_eq, List.filter_cons_of_neg (by simpa using h)]

/-- Listed in the wrong order, with another file in between: k-points 1, 2 at `k = (1/2, 0, 0)`, `(1, 0, 0)`. -/
def exDir : List (List Char × Bytes) :=
  [("wfc2.dat".toList, (exWave 2).bytes), ("charge-density.dat".toList, [1, 2, 3]), ("wfc1.dat".toList, (exWave 1).bytes)]

theorem exDir_files : wfcFiles exDir = ([(exWave 2, 2, 1, 2), (exWave 1, 2, 1, 2)] : List (WaveFile × ℕ × ℕ × ℕ)).map fun f => f.1.bytes := by
  rw [exDir, wfcFiles_pos (by decide), wfcFiles_neg (by decide), wfcFiles_pos (by decide)]
  rfl

/-- The hypotheses of `C129_read_wavefunctions` hold, and the entry for the first k-point is that of the file listed last. -/
example : ∃ out o, readWavefunctions exCodec exDir = .ok out ∧ out.length = 2 ∧ out[0]? = some o ∧
    (exWave 1).Says exCodec.i32 exCodec.f64 ((2 : ℝ) • (1 : Mat ℝ 3)) 2 1 2 o := by
  obtain ⟨out, h1, h2, h3⟩ := C129_read_wavefunctions exCodec exDir [(exWave 2, 2, 1, 2), (exWave 1, 2, 1, 2)] _ exDir_files
    (by
      intro f hf
      simp only [List.mem_cons, List.not_mem_nil, or_false] at hf
      rcases hf with rfl | rfl
      · exact ⟨exWave_ok 2, exWave_lattice 2⟩
      · exact ⟨exWave_ok 1, exWave_lattice 1⟩)
    (by simp) (by simp)
    (by
      intro f hf
      simp only [List.mem_cons, List.not_mem_nil, or_false] at hf
      rcases hf with rfl | rfl <;> simp [exWave, exCodec, w4])
  obtain ⟨i, f, o, hf, ho, hs, hc⟩ := h3 0 (by simp)
  refine ⟨out, o, h1, h2, ho, ?_⟩
  rcases hc with ⟨hk, _⟩ | ⟨_, hk⟩
  · match i, hf with
    | 0, hf =>
      simp only [List.getElem?_cons_zero, Option.some.injEq] at hf
      subst hf
      simp [exWave, exCodec, w4] at hk
    | 1, hf =>
      simp only [List.getElem?_cons_succ, List.getElem?_cons_zero, Option.some.injEq] at hf
      subst hf
      exact hs
    | (i + 2), hf => simp at hf
  · have := hk (exWave 1, 2, 1, 2) (by simp)
    simp [exWave, exCodec, w4] at this

/-- Both orders give the same. -/
example : ∃ out, readWavefunctions exCodec exDir = .ok out ∧ readWavefunctions exCodec exDir.reverse = .ok out :=
  C129_order exCodec exDir exDir.reverse [(exWave 2, 2, 1, 2), (exWave 1, 2, 1, 2)] [(exWave 1, 2, 1, 2), (exWave 2, 2, 1, 2)] _ exDir_files
    (by
      show wfcFiles [("wfc1.dat".toList, _), ("charge-density.dat".toList, _), ("wfc2.dat".toList, _)] = _
      rw [wfcFiles_pos (by decide), wfcFiles_neg (by decide), wfcFiles_pos (by decide)]
      rfl)
    (List.Perm.swap _ _ _)
    (by
      intro f hf
      simp only [List.mem_cons, List.not_mem_nil, or_false] at hf
      rcases hf with rfl | rfl
      · exact ⟨exWave_ok 2, exWave_lattice 2⟩
      · exact ⟨exWave_ok 1, exWave_lattice 1⟩)
    (by simp) (by simp)
    (by simpa [exWave, exCodec, w4, List.range_succ] using List.Perm.swap (1 : ℤ) 2 [])

/-- A directory with the charge density only. -/
example : readWavefunctions exCodec [("charge-density.dat".toList, [1, 2, 3])] = .error .indexError := C129_no_files _ _ (by rw [wfcFiles_neg (by decide)]; rfl)

/-- The same file with a smaller cell. -/
def exOther : WaveFile := { exWave 2 with b1 := [w8 1, w8 0, w8 0] }

example : readWavefunctions exCodec [("wfc1.dat".toList, (exWave 1).bytes), ("wfc2.dat".toList, exOther.bytes)] = .error .assertionError :=
  C129_other_lattice exCodec _ [(exWave 1, 2, 1, 2)] _ exOther 2 1 2 [] (by rw [wfcFiles_pos (by decide), wfcFiles_pos (by decide)]; rfl)
    (by
      intro f hf
      simp only [List.mem_cons, List.not_mem_nil, or_false] at hf
      subst hf
      exact ⟨exWave_ok 1, exWave_lattice 1⟩)
    (by simp)
    (by constructor <;> simp [exOther, exWave, Marks.Ok, Words, exMarks, w4, w8, exCodec])
    (by
      intro h
      have := congrFun (congrFun h 0) 0
      simp [columns, exOther, exCodec, w8] at this)

/-- Only the file with number 2. -/
example : readWavefunctions exCodec [("wfc2.dat".toList, (exWave 2).bytes)] = .error .indexError :=
  C129_missing_files exCodec _ [(exWave 2, 2, 1, 2)] _ (by rw [wfcFiles_pos (by decide)]; rfl)
    (by
      intro f hf
      simp only [List.mem_cons, List.not_mem_nil, or_false] at hf
      subst hf
      exact ⟨exWave_ok 2, exWave_lattice 2⟩)
    ⟨_, List.mem_cons_self, by simp [exWave, exCodec, w4]⟩

/-- Two polarisations: the first vector's second component comes out as the second vector's first. -/
def exSpin : WaveFile := { exWave 1 with npol := w4 2, nbnd := w4 1, bands := [(exMarks, [w8 1 ++ w8 0, w8 2 ++ w8 0, w8 3 ++ w8 0, w8 4 ++ w8 0])] }

theorem exSpin_ok : exSpin.Ok exCodec.i32 2 2 1 := by
  constructor <;> simp [exSpin, exWave, Marks.Ok, Words, exMarks, w4, w8, exCodec]

example : (((entryOf exCodec ((2 : ℝ) • (1 : Mat ℝ 3)) (exSpin, 2, 2, 1)).2.2[0]?.bind (·[0]?)).bind (·[1]?)) = some (2 : ℂ) := by
  have := (C129_defect_polarisation exCodec ((2 : ℝ) • (1 : Mat ℝ 3)) exSpin 2 2 1 _ (entryOf_says exCodec (by simp) exSpin_ok)
    (fun p g => [w8 1 ++ w8 0, w8 2 ++ w8 0, w8 3 ++ w8 0, w8 4 ++ w8 0].getD (p * 2 + g) []) 0 _ rfl
    (by
      intro p hp g hg
      have : p * 2 + g < [w8 1 ++ w8 0, w8 2 ++ w8 0, w8 3 ++ w8 0, w8 4 ++ w8 0].length := by simp; omega
      rw [List.getD_eq_getElem _ _ this]
      exact List.getElem?_eq_getElem this)).2 rfl (le_refl 2)
  rw [this]
  simp [complexOf, exCodec, w8]
  rfl

/-- A charge density of one spin with coefficients 5 + 6i, 7 + 8i on two vectors. -/
def exCharge : ChargeFile where
  m1 := exMarks
  gamma := w4 0
  ngm := w4 2
  nspin := w4 1
  m2 := exMarks
  b1 := [w8 2, w8 0, w8 0]
  b2 := [w8 0, w8 2, w8 0]
  b3 := [w8 0, w8 0, w8 2]
  m3 := exMarks
  mill := [w4 0, w4 0, w4 0, w4 1, w4 0, w4 0]
  spins := [(exMarks, [w8 5 ++ w8 6, w8 7 ++ w8 8])]

theorem exCharge_ok : exCharge.Ok exCodec.i32 2 1 := by
  constructor <;> simp [exCharge, Marks.Ok, Words, exMarks, w4, w8, exCodec]

/-- The values returned are 9 (a marker) and 6 instead of 5 and 7. -/
example : ∃ gs rho row, readChargeDensity exCodec exCharge.bytes = .ok (gs, rho) ∧ rho[0]? = some row ∧ row[0]? = some 9 ∧ row[1]? = some 6 := by
  obtain ⟨gs, rho, h, _, _, _, hr⟩ := C130_defect_shift exCodec exCharge 2 1 exCharge_ok
  obtain ⟨row, h1, _, h2, h3⟩ := hr 0 _ rfl
  refine ⟨gs, rho, row, h, h1, ?_, ?_⟩
  · rw [h2 (by omega)]
    simp [exCharge, exMarks, exCodec, w4]
  · rw [h3 0 (by omega)]
    simp [complexOf, exCodec, w8]

/-- Other real parts, same result. -/
example : readChargeDensity exCodec { exCharge with spins := [(exMarks, [w8 1 ++ w8 6, w8 2 ++ w8 8])] }.bytes =
    readChargeDensity exCodec exCharge.bytes :=
  C130_defect_real_parts exCodec exCharge _ 2 1 exCharge_ok
    (by constructor <;> simp [exCharge, Marks.Ok, Words, exMarks, w4, w8, exCodec]) (by rfl) rfl

/-! ## Files which end too early -/

theorem items_rest (size m : ℕ) (b : Bytes) : (items size m b).2.length ≤ b.length - m * size := by
  induction m generalizing b with
  | zero => simp [items]
  | succ m ih =>
    rw [items]
    split_ifs with h
    · simp
    · have := ih (b.drop size)
      simp only [List.length_drop] at this
      simp only [Nat.add_mul, one_mul]
      omega

/-- A number is read from a file with fewer than `size + N` bytes: it fails, or fewer than `N` bytes are left. -/
theorem scalar_bind {β : Type} (size N : ℕ) (b : Bytes) (k : Bytes × Bytes → Except Err β) (hb : b.length < size + N)
    (hk : ∀ x r, r.length < N → k (x, r) = .error .indexError) : (scalar size b >>= k) = .error .indexError := by
  rw [scalar, items]
  by_cases h : b.length < size
  · rw [if_pos h]
    rfl
  · rw [if_neg h]
    simp only [items]
    exact hk _ _ (by rw [List.length_drop]; omega)

/-- **C129.** A file which ends within its first 72 bytes (before the lattice): `IndexError`. -/
theorem C129_truncated (c : Codec) (dir : List (List Char × Bytes)) (f : Bytes) (fs : List Bytes) (h : wfcFiles dir = f :: fs) (hf : f.length < 72) :
    readWavefunctions c dir = .error .indexError := by
  have hw : readWave c none f = .error .indexError := by
    rw [readWave]
    refine scalar_bind 4 64 _ _ (by rw [List.length_drop]; omega) fun _ r1 h1 => ?_
    have h2 := items_rest 8 3 r1
    refine scalar_bind 4 36 _ _ (by omega) fun _ r3 h3 => ?_
    refine scalar_bind 4 32 _ _ h3 fun _ r4 h4 => ?_
    refine scalar_bind 8 24 _ _ h4 fun _ r5 h5 => ?_
    refine scalar_bind 4 12 _ _ (by rw [List.length_drop]; omega) fun _ r6 h6 => ?_
    refine scalar_bind 4 8 _ _ h6 fun _ r7 h7 => ?_
    refine scalar_bind 4 4 _ _ h7 fun _ r8 h8 => ?_
    exact scalar_bind 4 0 _ _ h8 fun _ r9 h9 => absurd h9 (Nat.not_lt_zero _)
  rw [readWavefunctions, wfcFiles_eq, h, readWaves, hw]
  rfl

/-- An empty file. -/
example (c : Codec) : readWavefunctions c [("wfc1.dat".toList, [])] = .error .indexError :=
  C129_truncated c _ [] [] (by rw [wfcFiles_pos (by decide)]; rfl) (by decide)

/-- **C130.** A file which ends within its first 16 bytes: `IndexError`; a file which ends after the vectors, with less than one number left, `ValueError` if there
should be numbers. -/
theorem C130_truncated (c : Codec) :
    (∀ b : Bytes, b.length < 16 → readChargeDensity c b = .error .indexError) ∧
    ∀ (w : ChargeFile) (ng ns : ℕ) (b r : Bytes), w.Ok c.i32 ng ns → 0 < ng → 0 < ns → w.bytes = b ++ (w.m3.post ++ recordsOf w.spins) → r.length < 16 →
      readChargeDensity c (b ++ r) = .error .valueError := by
  constructor
  · intro b hb
    rw [readChargeDensity]
    refine scalar_bind 4 8 _ _ (by rw [List.length_drop]; omega) fun _ r1 h1 => ?_
    refine scalar_bind 4 4 _ _ h1 fun _ r2 h2 => ?_
    exact scalar_bind 4 0 _ _ h2 fun _ r3 h3 => absurd h3 (Nat.not_lt_zero _)
  · intro w ng ns b r h hng0 hns0 hb hr
    have e : w.bytes = (w.m1.pre ++ (w.gamma ++ (w.ngm ++ (w.nspin ++ (w.m1.post ++ (w.m2.pre ++ (w.b1.flatten ++ (w.b2.flatten ++ (w.b3.flatten ++
        (w.m2.post ++ (w.m3.pre ++ w.mill.flatten))))))))))) ++ (w.m3.post ++ recordsOf w.spins) := by
      simp [ChargeFile.bytes, record, List.append_assoc]
    have eb := List.append_cancel_right (hb.symm.trans e)
    rw [eb]
    simp only [List.append_assoc]
    rw [readChargeDensity, drop_mark h.m1.1]
    simp only [scalar_append h.gamma, bind, Except.bind, scalar_append h.ngm.1, scalar_append h.nspin.1, drop_two h.m1.2 h.m2.1,
      lattice_append c h.b1 h.b2 h.b3]
    have hng : (c.i32 w.ngm).toNat = ng := by rw [h.ngm.2]; simp
    have hns : (c.i32 w.nspin).toNat = ns := by rw [h.nspin.2]; simp
    rw [hng, hns]
    simp only [drop_two h.m2.2 h.m3.1, items_append h.mill]
    rw [if_neg (not_not.2 h.mill.1)]
    obtain ⟨m, rfl⟩ : ∃ m, ng = m + 1 := ⟨ng - 1, by omega⟩
    obtain ⟨q, rfl⟩ : ∃ q, ns = q + 1 := ⟨ns - 1, by omega⟩
    simp [records, items, hr, assignRow]

/-- The charge density above without its coefficients. -/
example : ∃ b, exCharge.bytes = b ++ (exCharge.m3.post ++ recordsOf exCharge.spins) ∧ readChargeDensity exCodec b = .error .valueError := by
  have e : exCharge.bytes = (exCharge.m1.pre ++ (exCharge.gamma ++ (exCharge.ngm ++ (exCharge.nspin ++ (exCharge.m1.post ++ (exCharge.m2.pre ++
      (exCharge.b1.flatten ++ (exCharge.b2.flatten ++ (exCharge.b3.flatten ++ (exCharge.m2.post ++ (exCharge.m3.pre ++ exCharge.mill.flatten))))))))))) ++
      (exCharge.m3.post ++ recordsOf exCharge.spins) := by
    simp [ChargeFile.bytes, record, List.append_assoc]
  refine ⟨_, e, ?_⟩
  have := (C130_truncated exCodec).2 exCharge 2 1 _ [] exCharge_ok (by decide) (by decide) e (by decide)
  rwa [List.append_nil] at this

end TB.PropsQeBin
