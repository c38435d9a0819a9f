import Verif.Model.Sharing
import Verif.Props.BandStructureOps

/-!
# C152: which objects of `BandStructureModel` are changed by a method call
-/

namespace TB.PropsShare
open Matrix TB TB.BS TB.Share

variable {d n : ℕ}

/-! ## Specification: objects as values, with the family of objects made from the same `init_tight_binding` -/

/-- The matrices replaced. -/
def Spec.put (F : Params n → Params n) (b : BSM d n) : BSM d n := { b with P0 := (F (b.P0, b.Ps)).1, Ps := (F (b.P0, b.Ps)).2 }

/-- The list of objects, each with its family; a new model starts a family of its own, and every object made from another one belongs to the family of this one. -/
noncomputable def Spec.step (l : List (BSM d n × ℕ)) : Op d n → List (BSM d n × ℕ)
  | .init t => match BS.init t n with
    | .ok b => l ++ [(b, l.length)]
    | .error _ => l
  | .copy i => l ++ l[i]?.toList
  | .shift i c => l ++ (l[i]?.map fun x => (x.1.shift c, x.2)).toList
  | .mul i c => l ++ (l[i]?.map fun x => (x.1.mul c, x.2)).toList
  | .write i F => l.modify i fun x => (Spec.put F x.1, x.2)
  | .assign i F => l.modify i fun x => (Spec.put F x.1, x.2)
  | .transform i A => match l[i]? with
    | some x => l.map fun y => if y.2 = x.2 then ((y.1.transform A).1, y.2) else y
    | none => l

/-- A program on values. -/
noncomputable def Spec.run (ops : List (Op d n)) : List (BSM d n × ℕ) := ops.foldl Spec.step []

/-! ## Proof -/

/-- The objects of the heap and the values belong together. -/
structure Rel (h : Heap d n) (l : List (BSM d n × ℕ)) : Prop where
  len : h.objs.length = l.length
  read : ∀ i (hi : i < h.objs.length) (hl : i < l.length), h.read h.objs[i] = l[i].1
  nb : ∀ i (hi : i < h.objs.length), h.objs[i].nb < h.nbs.length
  pr : ∀ i (hi : i < h.objs.length), h.objs[i].pr < h.prs.length
  fam : ∀ i (hl : i < l.length), l[i].2 < l.length
  inj : ∀ i j (hi : i < h.objs.length) (hj : j < h.objs.length), h.objs[i].pr = h.objs[j].pr → i = j
  share : ∀ i j (hi : i < h.objs.length) (hj : j < h.objs.length) (hi' : i < l.length) (hj' : j < l.length), h.objs[i].nb = h.objs[j].nb ↔ l[i].2 = l[j].2

theorem rel_empty : Rel (empty : Heap d n) [] := by
  constructor <;> simp [empty]

/-- A new object with its own array of matrices. -/
theorem rel_push {h : Heap d n} {l : List (BSM d n × ℕ)} (hr : Rel h l) (nbs : List (List (RVec d))) (p : Params n) (o : Obj d n) (x : BSM d n × ℕ)
    (hnbs : ∃ e, nbs = h.nbs ++ e) (hop : o.pr = h.prs.length) (hon : o.nb < nbs.length) (hf : x.2 ≤ l.length)
    (hx : (⟨nbs, h.prs ++ [p], h.objs ++ [o]⟩ : Heap d n).read o = x.1)
    (hs : ∀ i (hi : i < h.objs.length) (hl : i < l.length), h.objs[i].nb = o.nb ↔ l[i].2 = x.2) :
    Rel (⟨nbs, h.prs ++ [p], h.objs ++ [o]⟩ : Heap d n) (l ++ [x]) := by
  obtain ⟨e, rfl⟩ := hnbs
  have hlen := hr.len
  constructor
  · simp [hlen]
  · intro i hi hl
    simp only [List.length_append, List.length_singleton] at hi hl
    simp only [List.getElem_append]
    split_ifs with h1 h2 h2
    · rw [← hr.read i h1 h2]
      simp only [Heap.read, List.getD_append _ _ _ _ (hr.nb i h1), List.getD_append _ _ _ _ (hr.pr i h1)]
    · omega
    · omega
    · simpa using hx
  · intro i hi
    simp only [List.length_append, List.length_singleton] at hi
    simp only [List.getElem_append]
    split_ifs with h1
    · have := hr.nb i h1
      simp only [List.length_append]
      omega
    · simpa using hon
  · intro i hi
    simp only [List.getElem_append]
    split_ifs with h1
    · have := hr.pr i h1
      simp only [List.length_append]
      omega
    · simp [hop]
  · intro i hl
    simp only [List.length_append, List.length_singleton] at hl ⊢
    simp only [List.getElem_append]
    split_ifs with h1
    · have := hr.fam i h1
      omega
    · simp
      omega
  · intro i j hi hj
    simp only [List.length_append, List.length_singleton] at hi hj
    simp only [List.getElem_append]
    split_ifs with h1 h2 h2
    · exact hr.inj i j h1 h2
    · intro he
      simp only [List.getElem_singleton, hop] at he
      have := hr.pr i h1
      omega
    · intro he
      simp only [List.getElem_singleton, hop] at he
      have := hr.pr j h2
      omega
    · intro _
      omega
  · intro i j hi hj hi' hj'
    simp only [List.length_append, List.length_singleton] at hi hj hi' hj'
    simp only [List.getElem_append]
    by_cases h1 : i < h.objs.length <;> by_cases h2 : j < h.objs.length
    · simp only [h1, h2, hlen ▸ h1, hlen ▸ h2, dif_pos]
      exact hr.share i j h1 h2 _ _
    · have h2' : ¬ j < l.length := by omega
      simp only [h1, h2, hlen ▸ h1, h2', dif_pos, dif_neg, not_false_iff, List.getElem_singleton]
      exact hs i h1 _
    · have h1' : ¬ i < l.length := by omega
      simp only [h1, h2, hlen ▸ h2, h1', dif_pos, dif_neg, not_false_iff, List.getElem_singleton]
      rw [eq_comm, hs j h2 (hlen ▸ h2), eq_comm]
    · have h1' : ¬ i < l.length := by omega
      have h2' : ¬ j < l.length := by omega
      simp only [h1, h2, h1', h2', dif_neg, not_false_iff, List.getElem_singleton]

theorem getD_modify_eq {α : Type} (l : List α) (a : ℕ) (f : α → α) (z : α) (h : a < l.length) : (l.modify a f).getD a z = f (l.getD a z) := by
  rw [List.getD_eq_getElem?_getD, List.getElem?_modify_eq, List.getElem?_eq_getElem h, List.getD_eq_getElem?_getD, List.getElem?_eq_getElem h]
  rfl

theorem getD_modify_ne {α : Type} (l : List α) (a b : ℕ) (f : α → α) (z : α) (h : a ≠ b) : (l.modify a f).getD b z = l.getD b z := by
  rw [List.getD_eq_getElem?_getD, List.getElem?_modify_ne f l h, List.getD_eq_getElem?_getD]

theorem get_of {h : Heap d n} {l : List (BSM d n × ℕ)} (hr : Rel h l) {i : ℕ} {o : Obj d n} (ho : h.objs[i]? = some o) :
    ∃ (hi : i < h.objs.length) (hl : i < l.length), h.objs[i] = o ∧ l[i]? = some l[i] := by
  obtain ⟨hi, he⟩ := List.getElem?_eq_some_iff.1 ho
  exact ⟨hi, hr.len ▸ hi, he, List.getElem?_eq_getElem _⟩

theorem modify_append {α : Type} (l : List α) (x : α) (f : α → α) : (l ++ [x]).modify l.length f = l ++ [f x] := by
  induction l with
  | nil => rfl
  | cons a l ih => simpa using ih

theorem rel_step {h : Heap d n} {l : List (BSM d n × ℕ)} (hr : Rel h l) (op : Op d n) : Rel (h.step op) (Spec.step l op) := by
  have hlen := hr.len
  -- an object made from another one
  have hmake : ∀ (i : ℕ) (o : Obj d n) (F : Params n → Params n), h.objs[i]? = some o →
      ∃ x, l[i]? = some x ∧ Rel (⟨h.nbs, h.prs ++ [F (h.prs.getD o.pr (0, []))], h.objs ++ [{ o with pr := h.prs.length }]⟩ : Heap d n)
        (l ++ [(Spec.put F x.1, x.2)]) := by
    intro i o F ho
    obtain ⟨hi, hl, rfl, hx⟩ := get_of hr ho
    refine ⟨_, hx, rel_push hr _ _ _ _ ⟨[], by simp⟩ rfl (hr.nb i hi) (hr.fam i hl).le ?_ fun j hj hj' => hr.share j i hj hi hj' hl⟩
    rw [← hr.read i hi hl]
    simp only [Heap.read, Spec.put]
    rw [List.getD_append_right _ _ _ _ le_rfl]
    simp
  cases op with
  | init t =>
    simp only [Heap.step, Spec.step]
    cases hb : BS.init t n with
    | error e => exact hr
    | ok b =>
      simp only
      refine rel_push hr _ _ _ _ ⟨_, rfl⟩ rfl (by simp) le_rfl ?_ fun i hi hl => ?_
      · simp only [Heap.read]
        rw [List.getD_append_right _ _ _ _ le_rfl, List.getD_append_right _ _ _ _ le_rfl]
        rw [BS.init] at hb
        split_ifs at hb with h1 h2
        cases hb
        simp
      · have h1 := hr.nb i hi
        have h2 := hr.fam i hl
        simp only
        omega
  | copy i =>
    simp only [Heap.step, Spec.step]
    cases ho : h.objs[i]? with
    | none =>
      have : l[i]? = none := by
        rw [List.getElem?_eq_none_iff] at ho ⊢
        omega
      rw [this]
      simpa using hr
    | some o =>
      obtain ⟨x, hx, hn⟩ := hmake i o id ho
      rw [hx]
      exact hn
  | shift i c =>
    simp only [Heap.step, Spec.step]
    cases ho : h.objs[i]? with
    | none =>
      have : l[i]? = none := by
        rw [List.getElem?_eq_none_iff] at ho ⊢
        omega
      rw [this]
      simpa using hr
    | some o =>
      obtain ⟨x, hx, hn⟩ := hmake i o (fun p => (p.1 + (c : ℂ) • 1, p.2)) ho
      rw [hx]
      simp only [Heap.copy, modify_append]
      exact hn
  | mul i c =>
    simp only [Heap.step, Spec.step]
    cases ho : h.objs[i]? with
    | none =>
      have : l[i]? = none := by
        rw [List.getElem?_eq_none_iff] at ho ⊢
        omega
      rw [this]
      simpa using hr
    | some o =>
      obtain ⟨x, hx, hn⟩ := hmake i o (fun p => ((c : ℂ) • p.1, p.2.map fun P => (c : ℂ) • P)) ho
      rw [hx]
      simp only [Heap.copy, modify_append]
      exact hn
  | write i F =>
    simp only [Heap.step, Spec.step]
    cases ho : h.objs[i]? with
    | none =>
      have : l.length ≤ i := by
        rw [List.getElem?_eq_none_iff] at ho
        omega
      rw [List.modify_eq_self this]
      exact hr
    | some o =>
      obtain ⟨hi, hl, rfl, hx⟩ := get_of hr ho
      constructor
      · simpa using hlen
      · intro j hj hj'
        simp only [List.length_modify] at hj'
        rw [List.getElem_modify]
        simp only at hj ⊢
        split_ifs with e
        · subst e
          rw [← hr.read i hi hl]
          simp only [Heap.read, Spec.put]
          rw [getD_modify_eq _ _ _ _ (hr.pr i hi)]
        · rw [← hr.read j hj hj']
          simp only [Heap.read]
          rw [getD_modify_ne]
          exact fun e' => e (hr.inj i j hi hj e')
      · exact hr.nb
      · intro j hj
        simpa using hr.pr j hj
      · intro j hj
        simp only [List.length_modify] at hj ⊢
        rw [List.getElem_modify]
        split_ifs
        · exact hr.fam j hj
        · exact hr.fam j hj
      · exact hr.inj
      · intro a b ha hb ha' hb'
        simp only [List.length_modify] at ha' hb'
        have e : ∀ c (hc : c < l.length), (if i = c then ((Spec.put F l[c].1, l[c].2) : BSM d n × ℕ) else l[c]).2 = l[c].2 := by
          intro c hc
          split_ifs <;> rfl
        rw [List.getElem_modify, List.getElem_modify, e, e]
        exact hr.share a b ha hb ha' hb'
  | assign i F =>
    simp only [Heap.step, Spec.step]
    cases ho : h.objs[i]? with
    | none =>
      have : l.length ≤ i := by
        rw [List.getElem?_eq_none_iff] at ho
        omega
      rw [List.modify_eq_self this]
      exact hr
    | some o =>
      obtain ⟨hi, hl, rfl, hx⟩ := get_of hr ho
      have hnb : ∀ c (hc : c < h.objs.length), (if i = c then { h.objs[i] with pr := h.prs.length } else h.objs[c]).nb = h.objs[c].nb := by
        intro c hc
        split_ifs with e
        · subst e; rfl
        · rfl
      constructor
      · simpa using hlen
      · intro j hj hj'
        simp only [List.length_modify, List.length_set] at hj hj'
        rw [List.getElem_modify]
        simp only [List.getElem_set]
        split_ifs with e
        · subst e
          rw [← hr.read i hi hl]
          simp only [Heap.read, Spec.put]
          rw [List.getD_append_right _ _ _ _ le_rfl]
          simp
        · rw [← hr.read j hj hj']
          simp only [Heap.read]
          rw [List.getD_append _ _ _ _ (hr.pr j hj)]
      · intro j hj
        simp only [List.length_set] at hj
        simp only [List.getElem_set]
        rw [hnb j hj]
        exact hr.nb j hj
      · intro j hj
        simp only [List.length_set] at hj
        have := hr.pr j hj
        simp only [List.getElem_set, List.length_append, List.length_singleton]
        split_ifs
        · simp
        · omega
      · intro j hj
        simp only [List.length_modify] at hj ⊢
        rw [List.getElem_modify]
        split_ifs
        · exact hr.fam j hj
        · exact hr.fam j hj
      · intro a b ha hb
        simp only [List.length_set] at ha hb
        have h1 := hr.pr a ha
        have h2 := hr.pr b hb
        simp only [List.getElem_set]
        split_ifs with ea eb eb
        · intro _
          omega
        · intro e
          simp only at e
          omega
        · intro e
          simp only at e
          omega
        · exact hr.inj a b ha hb
      · intro a b ha hb ha' hb'
        simp only [List.length_modify, List.length_set] at ha hb ha' hb'
        have e : ∀ c (hc : c < l.length), (if i = c then ((Spec.put F l[c].1, l[c].2) : BSM d n × ℕ) else l[c]).2 = l[c].2 := by
          intro c hc
          split_ifs <;> rfl
        rw [List.getElem_modify, List.getElem_modify, e, e]
        simp only [List.getElem_set]
        rw [hnb a ha, hnb b hb]
        exact hr.share a b ha hb ha' hb'
  | transform i A =>
    simp only [Heap.step, Spec.step]
    cases ho : h.objs[i]? with
    | none =>
      have : l[i]? = none := by
        rw [List.getElem?_eq_none_iff] at ho ⊢
        omega
      rw [this]
      exact hr
    | some o =>
      obtain ⟨hi, hl, rfl, hx⟩ := get_of hr ho
      rw [hx]
      simp only
      constructor
      · simpa using hlen
      · intro j hj hj'
        simp only [List.length_map] at hj'
        simp only [List.getElem_map]
        simp only at hj
        have hsh := hr.share j i hj hi hj' hl
        split_ifs with e
        · have e' := hsh.2 e
          simp only
          rw [← hr.read j hj hj']
          simp only [Heap.read, BSM.transform]
          rw [e', getD_modify_eq _ _ _ _ (hr.nb i hi)]
        · have e' : h.objs[i].nb ≠ h.objs[j].nb := fun q => e (hsh.1 q.symm)
          rw [← hr.read j hj hj']
          simp only [Heap.read]
          rw [getD_modify_ne _ _ _ _ _ e']
      · intro j hj
        simpa using hr.nb j hj
      · exact hr.pr
      · intro j hj
        simp only [List.length_map] at hj ⊢
        simp only [List.getElem_map]
        split_ifs
        · exact hr.fam j hj
        · exact hr.fam j hj
      · exact hr.inj
      · intro a b ha hb ha' hb'
        simp only [List.length_map] at ha' hb'
        have e : ∀ y : BSM d n × ℕ, (if y.2 = l[i].2 then ((y.1.transform A).1, y.2) else y).2 = y.2 := by
          intro y
          split_ifs <;> rfl
        simp only [List.getElem_map, e]
        exact hr.share a b ha hb ha' hb'

theorem rel_run (ops : List (Op d n)) : Rel (empty.run ops) (Spec.run ops) := by
  rw [Heap.run, Spec.run]
  have : ∀ (h : Heap d n) l, Rel h l → Rel (ops.foldl Heap.step h) (ops.foldl Spec.step l) := by
    induction ops with
    | nil => exact fun h l hr => hr
    | cons op ops ih => exact fun h l hr => ih _ _ (rel_step hr op)
  exact this _ _ rel_empty

theorem view_eq {h : Heap d n} {l : List (BSM d n × ℕ)} (hr : Rel h l) : h.view = l.map Prod.fst := by
  apply List.ext_getElem
  · simp [Heap.view, hr.len]
  · intro i h1 h2
    simp only [Heap.view, List.length_map] at h1 h2
    simp only [Heap.view, List.getElem_map]
    exact hr.read i h1 h2

/-- C152: after every program every object has the content it has if objects are values, where `transform` of an object transforms all objects of its family. -/
theorem C152_family (ops : List (Op d n)) : (empty.run ops).view = (Spec.run ops).map Prod.fst := view_eq (rel_run ops)

/-- A program: new model, its matrices, a copy, a change of the copy. -/
example : (empty.run [.init ⟨[1], false, [0, ![1]], false, true⟩, .assign 0 fun p => (p.1, [1]), .copy 0, .write 1 fun p => (5, p.2)] : Heap 1 1).view =
    [⟨.tb ⟨[1], false, [0, ![1]], false, true⟩, 0, [1], none⟩, ⟨.tb ⟨[1], false, [0, ![1]], false, true⟩, 5, [1], none⟩] := by
  rw [C152_family]
  simp [Spec.run, Spec.step, BS.init, TBData.termCount, Spec.put, List.modify]

/-- Objects as independent values: `transform` changes only the named object. -/
noncomputable def Spec.valueStep (l : List (BSM d n)) : Op d n → List (BSM d n)
  | .init t => match BS.init t n with
    | .ok b => l ++ [b]
    | .error _ => l
  | .copy i => l ++ l[i]?.toList
  | .shift i c => l ++ (l[i]?.map fun x => x.shift c).toList
  | .mul i c => l ++ (l[i]?.map fun x => x.mul c).toList
  | .write i F => l.modify i (Spec.put F)
  | .assign i F => l.modify i (Spec.put F)
  | .transform i A => l.modify i fun x => (x.transform A).1

/-- No statement of the program is a `transform`. -/
def Spec.NoTransform (ops : List (Op d n)) : Prop := ∀ i A, Op.transform i A ∉ ops

theorem map_modify_fst (l : List (BSM d n × ℕ)) (i : ℕ) (F : BSM d n → BSM d n) :
    (l.modify i fun x => (F x.1, x.2)).map Prod.fst = (l.map Prod.fst).modify i F := by
  apply List.ext_getElem
  · simp
  · intro j h1 h2
    simp only [List.getElem_map, List.getElem_modify]
    split_ifs <;> rfl

theorem spec_step (l : List (BSM d n × ℕ)) (op : Op d n) (h : ∀ i A, op ≠ .transform i A) :
    (Spec.step l op).map Prod.fst = Spec.valueStep (l.map Prod.fst) op := by
  cases op with
  | init t =>
    simp only [Spec.step, Spec.valueStep]
    cases BS.init t n <;> simp
  | copy i =>
    simp only [Spec.step, Spec.valueStep, List.map_append, List.getElem?_map]
    cases l[i]? <;> rfl
  | shift i c =>
    simp only [Spec.step, Spec.valueStep, List.map_append, List.getElem?_map]
    cases l[i]? <;> rfl
  | mul i c =>
    simp only [Spec.step, Spec.valueStep, List.map_append, List.getElem?_map]
    cases l[i]? <;> rfl
  | write i F => exact map_modify_fst l i (Spec.put F)
  | assign i F => exact map_modify_fst l i (Spec.put F)
  | transform i A => exact absurd rfl (h i A)

/-- C152: as long as nothing is transformed, all objects are independent values. -/
theorem C152_isolated (ops : List (Op d n)) (h : Spec.NoTransform ops) : (empty.run ops).view = ops.foldl Spec.valueStep [] := by
  rw [C152_family, Spec.run]
  have : ∀ (l : List (BSM d n × ℕ)), Spec.NoTransform ops → (ops.foldl Spec.step l).map Prod.fst = ops.foldl Spec.valueStep (l.map Prod.fst) := by
    clear h
    induction ops with
    | nil => exact fun l _ => rfl
    | cons op ops ih =>
      intro l h
      rw [List.foldl_cons, List.foldl_cons, ih _ fun i A hm => h i A (List.mem_cons_of_mem _ hm),
        spec_step l op fun i A e => h i A (e ▸ List.mem_cons_self)]
  exact this [] h

example : Spec.NoTransform ([.init ⟨[1], false, [0, ![1]], false, true⟩, .mul 0 2, .shift 1 3, .write 2 fun p => (5, p.2)] : List (Op 1 1)) := by
  intro i A h
  simp at h

theorem run_append (h : Heap d n) (ops ops' : List (Op d n)) : h.run (ops ++ ops') = (h.run ops).run ops' := by
  rw [Heap.run, Heap.run, Heap.run, List.foldl_append]

/-- C152: a method which changes the matrices of one object changes no other object, whatever happened before. -/
theorem C152_frame (ops : List (Op d n)) (i j : ℕ) (F : Params n → Params n) (hij : i ≠ j) :
    ((empty.run ops).step (.write i F)).view[j]? = (empty.run ops).view[j]? ∧
    ((empty.run ops).step (.assign i F)).view[j]? = (empty.run ops).view[j]? := by
  have hr := rel_run ops
  rw [view_eq (rel_step hr _), view_eq (rel_step hr _), view_eq hr]
  simp only [Spec.step, map_modify_fst _ i (Spec.put F)]
  rw [List.getElem?_modify_ne _ _ hij]
  exact ⟨rfl, rfl⟩

example (ops : List (Op 1 1)) : ((empty.run ops).step (.write 0 fun p => (p.1 + 1, p.2))).view[1]? = (empty.run ops).view[1]? :=
  (C152_frame ops 0 1 _ (by decide)).1

/-- C152: `transform` changes exactly the objects of the family. -/
theorem C152_transform (ops : List (Op d n)) (i j : ℕ) (A : Matrix (Fin d) (Fin d) ℝ) (x y : BSM d n × ℕ) (hi : (Spec.run ops)[i]? = some x)
    (hj : (Spec.run ops)[j]? = some y) :
    (empty.run ops).view[j]? = some y.1 ∧
    ((empty.run ops).step (.transform i A)).view[j]? = some (if y.2 = x.2 then (y.1.transform A).1 else y.1) := by
  have hr := rel_run ops
  rw [view_eq (rel_step hr _), view_eq hr]
  simp only [Spec.step, hi, List.map_map, List.getElem?_map, hj, Option.map_some, Function.comp, true_and]
  split_ifs <;> rfl

/-- Two models of different families: the second one is not changed. -/
example (A : Matrix (Fin 1) (Fin 1) ℝ) (b : BSM 1 1) (hb : BS.init ⟨[1], false, [0, ![1]], false, true⟩ 1 = .ok b) :
    ((empty.run [.init ⟨[1], false, [0, ![1]], false, true⟩, .init ⟨[1], false, [0, ![1]], false, true⟩]).step (.transform 0 A)).view[1]? = some b := by
  have h : (Spec.run [.init ⟨[1], false, [0, ![1]], false, true⟩, .init ⟨[1], false, [0, ![1]], false, true⟩] : List (BSM 1 1 × ℕ)) = [(b, 0), (b, 1)] := by
    simp [Spec.run, Spec.step, hb]
  have := (C152_transform [.init ⟨[1], false, [0, ![1]], false, true⟩, .init ⟨[1], false, [0, ![1]], false, true⟩] 0 1 A (b, 0) (b, 1) (by rw [h]; rfl)
    (by rw [h]; rfl)).2
  simpa using this

/-- C152: everything made from an object by `copy`, `+` and `*` is transformed with it, and transforms it: after transforming both the object and its copy, both
have been transformed twice. -/
theorem C152_linked (ops : List (Op d n)) (i : ℕ) (b : BSM d n) (hi : (empty.run ops).view[i]? = some b) (c : ℝ) (A B : Matrix (Fin d) (Fin d) ℝ) :
    let N := (empty.run ops).view.length
    ((empty.run (ops ++ [.copy i, .transform N A])).view[i]? = some (b.transform A).1) ∧
    ((empty.run (ops ++ [.mul i c, .transform N A])).view[i]? = some (b.transform A).1) ∧
    ((empty.run (ops ++ [.shift i c, .transform N A])).view[i]? = some (b.transform A).1) ∧
    ((empty.run (ops ++ [.copy i, .transform i A])).view[N]? = some (b.transform A).1) ∧
    ((empty.run (ops ++ [.mul i c, .transform i A])).view[N]? = some ((b.mul c).transform A).1) ∧
    ((empty.run (ops ++ [.shift i c, .transform i A])).view[N]? = some ((b.shift c).transform A).1) ∧
    ((empty.run (ops ++ [.copy i, .transform i A, .transform N B])).view[i]? = some ((b.transform A).1.transform B).1) ∧
    ((empty.run (ops ++ [.copy i, .transform i A, .transform N B])).view[N]? = some ((b.transform A).1.transform B).1) := by
  simp only [C152_family, Spec.run, List.foldl_append, List.foldl_cons, List.foldl_nil, List.length_map] at hi ⊢
  generalize ops.foldl Spec.step [] = l at hi ⊢
  rw [List.getElem?_map] at hi
  cases hx : l[i]? with
  | none => simp [hx] at hi
  | some x =>
    rw [hx] at hi
    simp only [Option.map_some, Option.some.injEq] at hi
    subst hi
    have hlt : i < l.length := (List.getElem?_eq_some_iff.1 hx).1
    have hne : l.length ≠ i := by omega
    simp only [Spec.step, hx, Option.toList, Option.map_some, List.getElem?_append_right le_rfl, Nat.sub_self, List.getElem?_cons_zero, List.getElem?_map,
      List.getElem?_append_left hlt, if_true]
    simp

/-- The witness: an object and its copy. -/
noncomputable def linkedOps : List (Op 1 1) := [.init ⟨[1], false, [0, ![1]], false, true⟩, .assign 0 fun p => (p.1, [1])]

theorem linkedOps_view : (empty.run linkedOps).view = [⟨.tb ⟨[1], false, [0, ![1]], false, true⟩, 0, [1], none⟩] := by
  rw [C152_family]
  simp [linkedOps, Spec.run, Spec.step, BS.init, TBData.termCount, Spec.put, List.modify]

/-- C152: so the Hamiltonian of a model changes when a copy of it is transformed. -/
theorem C152_defect : ∃ (ops : List (Op 1 1)) (b b' : BSM 1 1) (k : RVec 1), (empty.run ops).view[0]? = some b ∧
    (empty.run (ops ++ [.copy 0, .transform 1 (2 • 1)])).view[0]? = some b' ∧ b.f k 0 0 = -2 ∧ b'.f k 0 0 = 2 := by
  have h0 : (empty.run linkedOps).view[0]? = some ⟨.tb ⟨[1], false, [0, ![1]], false, true⟩, 0, [1], none⟩ := by rw [linkedOps_view]; rfl
  have h1 := (C152_linked linkedOps 0 _ h0 1 (2 • 1) 1).1
  rw [linkedOps_view] at h1
  refine ⟨linkedOps, _, _, fun _ => 1 / 2, h0, h1, ?_, ?_⟩
  · simp [BSM.f, BSM.hsum, Coeff.fi, TBData.fi, TBData.rOrig, TBData.func, dotProduct]
    rw [show (Complex.I * (2 * Real.pi * 2⁻¹) : ℂ) = Real.pi * Complex.I by ring, Complex.exp_pi_mul_I]
    norm_num
  · simp [BSM.f, BSM.hsum, Coeff.fi, TBData.fi, TBData.rOrig, TBData.func, dotProduct, BSM.transform, Matrix.mulVec]
    rw [show (Complex.I * (2 * Real.pi) : ℂ) = 2 * Real.pi * Complex.I by ring, Complex.exp_two_pi_mul_I]
    norm_num

end TB.PropsShare
