import Verif.Model.PovmOperator
import Mathlib.Data.List.Nodup
import Mathlib.Data.List.Induction

/-!
# Lemmas on the operator registry and on the bookkeeping of `POVMOperator.add`
-/

namespace JVMC

/-! ## Lookup in dictionaries -/

section Dict

variable {V : Type}

theorem PyDict.has_iff (d : PyDict V) (k : String) : d.has k = true ↔ k ∈ d.map Prod.fst := by
  unfold PyDict.has; rw [List.contains_iff_mem]

theorem PyDict.get?_eq_none_iff (d : PyDict V) (k : String) :
    d.get? k = none ↔ k ∉ d.map Prod.fst := by
  unfold PyDict.get?
  induction d with
  | nil => simp
  | cons e d ih =>
    by_cases h : k = e.1
    · rw [List.lookup_cons]; simp [h]
    · rw [List.lookup_cons, beq_eq_false_iff_ne.mpr h]
      simp only [ih, List.map_cons, List.mem_cons, not_or]
      exact ⟨fun h' => ⟨h, h'⟩, fun h' => h'.2⟩

theorem PyDict.get?_insert (d : PyDict V) (k k' : String) (v : V) :
    (d.insert k v).get? k' = if k' = k then some v else d.get? k' := by
  unfold PyDict.insert PyDict.get?
  split
  · rename_i hmem
    induction d with
    | nil => simp at hmem
    | cons e d ih =>
      rw [List.map_cons, List.lookup_cons, List.lookup_cons]
      by_cases he : e.1 = k
      · simp only [he, if_true]
        by_cases hk : k' = k
        · simp [hk]
        · rw [beq_eq_false_iff_ne.mpr hk]
          simp only [if_neg hk]
          by_cases hd : k ∈ d.map Prod.fst
          · rw [ih hd, if_neg hk]
          · congr 1
            conv_rhs => rw [← List.map_id d]
            apply List.map_congr_left
            intro x hx
            rw [if_neg]
            · rfl
            · intro h; exact hd (List.mem_map.mpr ⟨x, hx, h⟩)
      · simp only [if_neg he]
        have hd : k ∈ d.map Prod.fst := by
          rcases List.mem_cons.mp (by simpa using hmem : k ∈ e.1 :: d.map Prod.fst) with h | h
          · exact absurd h.symm he
          · exact h
        rw [ih hd]
        by_cases hk : k' = e.1
        · simp [hk, he]
        · rw [beq_eq_false_iff_ne.mpr hk]
  · rename_i hmem
    induction d with
    | nil => 
      by_cases hk : k' = k
      · simp [hk]
      · simp [List.lookup, beq_eq_false_iff_ne.mpr hk, hk]
    | cons e d ih =>
      have h1 : k ≠ e.1 := fun h => hmem (by simp [h])
      have h2 : k ∉ d.map Prod.fst := fun h => hmem (by rw [List.map_cons]; exact List.mem_cons_of_mem _ h)
      rw [List.cons_append, List.lookup_cons, List.lookup_cons, ih h2]
      by_cases hk : k' = e.1
      · have : k' ≠ k := by rw [hk]; exact h1.symm
        simp [hk, h1.symm]
      · rw [beq_eq_false_iff_ne.mpr hk]

theorem PyDict.get?_merge (a b : PyDict V) (hb : (b.map Prod.fst).Nodup) (k : String) :
    (a.merge b).get? k = (b.get? k).or (a.get? k) := by
  unfold PyDict.merge
  induction b generalizing a with
  | nil => simp [PyDict.get?]
  | cons e b ih =>
    rw [List.map_cons, List.nodup_cons] at hb
    rw [List.foldl_cons, ih _ hb.2, PyDict.get?_insert]
    by_cases hk : k = e.1
    · have : PyDict.get? b k = none := by rw [PyDict.get?_eq_none_iff, hk]; exact hb.1
      rw [this, if_pos hk]
      unfold PyDict.get?
      rw [List.lookup_cons, beq_iff_eq.mpr hk]
      rfl
    · rw [if_neg hk]
      unfold PyDict.get?
      rw [List.lookup_cons, beq_eq_false_iff_ne.mpr hk]

theorem PyDict.keys_insert (d : PyDict V) (k : String) (v : V) (hd : (d.map Prod.fst).Nodup) :
    ((d.insert k v).map Prod.fst).Nodup := by
  unfold PyDict.insert
  split
  · have : (d.map fun e => if e.1 = k then (k, v) else e).map Prod.fst = d.map Prod.fst := by
      rw [List.map_map]
      apply List.map_congr_left
      intro e _
      by_cases h : e.1 = k <;> simp [h]
    rw [this]; exact hd
  · rename_i h
    rw [List.map_append, List.nodup_append]
    refine ⟨hd, by simp, ?_⟩
    intro a ha b hb
    rw [List.map_singleton, List.mem_singleton] at hb
    rintro rfl
    exact h ((show a = k from hb) ▸ ha)

/-- What holds between any two calls: the keys of a dictionary are distinct, and `operators` is the
union of the other three. -/
structure PovmReg.Inv (r : PovmReg V) : Prop where
  u : (r.unitaries.map Prod.fst).Nodup
  d : (r.dissipators.map Prod.fst).Nodup
  i : (r.imaginaries.map Prod.fst).Nodup
  o : r.updateOperators = r

theorem PovmReg.Inv.get? {r : PovmReg V} (h : r.Inv) (k : String) :
    r.operators.get? k = (r.imaginaries.get? k).or ((r.dissipators.get? k).or (r.unitaries.get? k)) := by
  have h1 : r.operators = ((PyDict.merge [] r.unitaries).merge r.dissipators).merge r.imaginaries := by
    conv_lhs => rw [← h.o]
    rfl
  rw [h1, PyDict.get?_merge _ _ h.i, PyDict.get?_merge _ _ h.d, PyDict.get?_merge _ _ h.u]
  simp [PyDict.get?]

theorem PovmReg.checkName_eq {r : PovmReg V} (h : r.Inv) (k : String) :
    r.checkName k = if r.operators.get? k = none then .ok () else .error .valueError := by
  have hd : ∀ d : PyDict V, d.has k = true ↔ d.get? k ≠ none := by
    intro d; rw [PyDict.has_iff, Ne, PyDict.get?_eq_none_iff, not_not]
  unfold PovmReg.checkName
  simp only [hd]
  have hg := h.get? k
  by_cases hu : r.unitaries.get? k = none
  · by_cases hdi : r.dissipators.get? k = none
    · by_cases hi : r.imaginaries.get? k = none
      · rw [hu, hdi, hi] at hg
        simp only [hu, hdi, hi, hg]
        simp
      · obtain ⟨x, hx⟩ := Option.ne_none_iff_exists'.mp hi
        rw [hx] at hg
        simp [hu, hdi, hx, hg]
    · obtain ⟨x, hx⟩ := Option.ne_none_iff_exists'.mp hdi
      rw [hx] at hg
      cases hi : r.imaginaries.get? k <;> simp [hu, hx, hg, hi]
  · obtain ⟨x, hx⟩ := Option.ne_none_iff_exists'.mp hu
    rw [hx] at hg
    cases hi : r.imaginaries.get? k <;> cases hdi : r.dissipators.get? k <;> simp [hx, hg, hi, hdi]

theorem PovmReg.inv_standard (U D : PyDict V) (hU : (U.map Prod.fst).Nodup)
    (hD : (D.map Prod.fst).Nodup) : (PovmReg.standard U D).Inv :=
  ⟨hU, hD, by simp [PovmReg.standard, PovmReg.updateOperators], rfl⟩

theorem PovmReg.inv_add {r : PovmReg V} (h : r.Inv) (kind : RegKind) (name : String) (ω : V) :
    (r.add kind name ω).1.Inv := by
  unfold PovmReg.add
  cases r.checkName name with
  | error e => exact h
  | ok _ =>
    cases kind
    · exact ⟨PyDict.keys_insert _ _ _ h.u, h.d, h.i, rfl⟩
    · exact ⟨h.u, PyDict.keys_insert _ _ _ h.d, h.i, rfl⟩
    · exact ⟨h.u, h.d, PyDict.keys_insert _ _ _ h.i, rfl⟩

theorem PovmReg.inv_run {r : PovmReg V} (h : r.Inv) (calls : List (RegKind × String × V)) :
    (r.run calls).Inv := by
  unfold PovmReg.run
  induction calls generalizing r with
  | nil => exact h
  | cons c calls ih => exact ih (PovmReg.inv_add h _ _ _)

theorem PovmReg.add_used {r : PovmReg V} (h : r.Inv) (kind : RegKind) (name : String) (ω A : V)
    (hA : r.operators.get? name = some A) : r.add kind name ω = (r, .error .valueError) := by
  unfold PovmReg.add
  rw [PovmReg.checkName_eq h, if_neg (by rw [hA]; simp)]

theorem PovmReg.add_new {r : PovmReg V} (h : r.Inv) (kind : RegKind) (name : String) (ω : V)
    (hA : r.operators.get? name = none) : (r.add kind name ω).2 = .ok () ∧
      ∀ k, (r.add kind name ω).1.operators.get? k
        = if k = name then some ω else r.operators.get? k := by
  have h' := PovmReg.inv_add h kind name ω
  refine ⟨?_, ?_⟩
  · unfold PovmReg.add
    rw [PovmReg.checkName_eq h, if_pos hA]
  · intro k
    rw [h'.get? k, h.get? k]
    rw [h.get? name] at hA
    have hi : r.imaginaries.get? name = none := by
      cases hi : r.imaginaries.get? name with
      | none => rfl
      | some x => rw [hi] at hA; simp at hA
    have hd : r.dissipators.get? name = none := by
      cases hd : r.dissipators.get? name with
      | none => rfl
      | some x => rw [hi, hd] at hA; simp at hA
    unfold PovmReg.add
    rw [PovmReg.checkName_eq h, if_pos (by rw [h.get? name]; exact hA)]
    cases kind <;> simp only [PovmReg.updateOperators, PyDict.get?_insert] <;> by_cases hk : k = name
      <;> simp [hk, hi, hd]

end Dict

/-! ## Identifiers of terms -/

section Ids

variable {N : ℕ} {R : Type}

/-- Everything in a dictionary but the identifier. -/
def OpDict.data (d : OpDict N R) : String × R × List (Fin N) := (d.name, d.strength, d.sites)

theorem PovmOps.run_append (w : PovmOps N R) (calls : List (ℕ × ℕ)) (c : ℕ × ℕ) :
    w.run (calls ++ [c]) = (w.run calls).add c.1 c.2 := by
  unfold PovmOps.run
  rw [List.foldl_append, List.foldl_cons, List.foldl_nil]

theorem PovmOps.run_ops (heap : List (OpDict N R)) (calls : List (ℕ × ℕ)) (o : ℕ) :
    ((PovmOps.fresh heap).run calls).ops o = (calls.filter fun c => decide (c.1 = o)).map Prod.snd := by
  induction calls using List.reverseRecOn with
  | nil => rfl
  | append_singleton calls c ih =>
    rw [PovmOps.run_append]
    generalize (PovmOps.fresh heap).run calls = w at *
    unfold PovmOps.add
    dsimp only
    rw [List.filter_append, List.map_append, ← ih]
    by_cases h : c.1 = o
    · subst h; simp
    · rw [Function.update_of_ne (Ne.symm h)]
      simp [h]

theorem PovmOps.run_heap (heap : List (OpDict N R)) (calls : List (ℕ × ℕ)) (ref : ℕ) :
    (((PovmOps.fresh heap).run calls).heap[ref]?).map OpDict.data = (heap[ref]?).map OpDict.data := by
  induction calls using List.reverseRecOn with
  | nil => rfl
  | append_singleton calls c ih =>
    rw [PovmOps.run_append]
    generalize (PovmOps.fresh heap).run calls = w at *
    unfold PovmOps.add
    dsimp only
    rw [List.getElem?_modify]
    by_cases h : c.2 = ref
    · rw [← ih]
      simp only [h, if_true]
      cases w.heap[ref]? <;> rfl
    · simp only [h, if_false]
      rw [← ih]
      simp

/-- Identifiers identify the dictionaries within one operator. -/
theorem PovmOps.run_ids (heap : List (OpDict N R)) (calls : List (ℕ × ℕ))
    (hown : ∀ c ∈ calls, ∀ c' ∈ calls, c.2 = c'.2 → c.1 = c'.1) (o : ℕ) :
    (∀ r ∈ ((PovmOps.fresh heap).run calls).ops o, ∀ d,
      ((PovmOps.fresh heap).run calls).heap[r]? = some d →
        d.id ≤ (((PovmOps.fresh heap).run calls).ops o).length) ∧
    ∀ r ∈ ((PovmOps.fresh heap).run calls).ops o, ∀ r' ∈ ((PovmOps.fresh heap).run calls).ops o,
      ∀ d d', ((PovmOps.fresh heap).run calls).heap[r]? = some d →
        ((PovmOps.fresh heap).run calls).heap[r']? = some d' → d.id = d'.id → r = r' := by
  induction calls using List.reverseRecOn with
  | nil => exact ⟨by intro r hr; simp [PovmOps.run, PovmOps.fresh] at hr,
      by intro r hr; simp [PovmOps.run, PovmOps.fresh] at hr⟩
  | append_singleton calls c ih =>
    obtain ⟨ih1, ih2⟩ := ih (fun a ha b hb => hown a (List.mem_append_left _ ha) b
      (List.mem_append_left _ hb))
    have hown' : ∀ r ∈ ((PovmOps.fresh heap).run calls).ops o, r = c.2 → c.1 = o := by
      intro r hr hrc
      rw [PovmOps.run_ops] at hr
      obtain ⟨a, ha, rfl⟩ := List.mem_map.mp hr
      obtain ⟨ha1, ha2⟩ := List.mem_filter.mp ha
      have := hown a (List.mem_append_left _ ha1) c (List.mem_append_right _ (by simp)) hrc
      rw [← this]; simpa using ha2
    rw [PovmOps.run_append]
    generalize hw : (PovmOps.fresh heap).run calls = w at *
    by_cases h : c.1 = o
    · subst h
      simp only [PovmOps.add, Function.update_self, List.mem_append, List.mem_singleton,
        List.length_append, List.length_singleton, List.getElem?_modify]
      have key : ∀ r, (r ∈ w.ops c.1 ∨ r = c.2) → ∀ d,
          (fun a => if c.2 = r then { a with id := (w.ops c.1).length + 1 } else a) <$> w.heap[r]? = some d →
          (r = c.2 ∧ d.id = (w.ops c.1).length + 1) ∨
          (r ≠ c.2 ∧ r ∈ w.ops c.1 ∧ w.heap[r]? = some d ∧ d.id ≤ (w.ops c.1).length) := by
        intro r hr d hd
        by_cases hrc : r = c.2
        · left
          refine ⟨hrc, ?_⟩
          cases hh : w.heap[r]? with
          | none => rw [hh] at hd; simp at hd
          | some x =>
            rw [hh] at hd
            simp only [hrc, if_true, Option.map_eq_map, Option.map_some, Option.some.injEq] at hd
            rw [← hd]
        · right
          have hr' : r ∈ w.ops c.1 := hr.resolve_right hrc
          cases hh : w.heap[r]? with
          | none => rw [hh] at hd; simp at hd
          | some x =>
            rw [hh] at hd
            simp only [Ne.symm hrc, if_false, Option.map_eq_map, Option.map_some,
              Option.some.injEq] at hd
            subst hd
            exact ⟨hrc, hr', rfl, ih1 r hr' x hh⟩
      refine ⟨?_, ?_⟩
      · intro r hr d hd
        rcases key r hr d hd with ⟨_, h2⟩ | ⟨_, _, _, h2⟩ <;> omega
      · intro r hr r' hr' d d' hd hd' hid
        rcases key r hr d hd with ⟨h1, h2⟩ | ⟨h1, h2, h3, h4⟩ <;>
          rcases key r' hr' d' hd' with ⟨g1, g2⟩ | ⟨g1, g2, g3, g4⟩
        · rw [h1, g1]
        · omega
        · omega
        · exact ih2 r h2 r' g2 d d' h3 g3 hid
    · have hr : ∀ r ∈ w.ops o, (w.add c.1 c.2).heap[r]? = w.heap[r]? := by
        intro r hr
        have : c.2 ≠ r := fun h' => h (hown' r hr h'.symm)
        simp [PovmOps.add, this]
      have ho : (w.add c.1 c.2).ops o = w.ops o := by
        simp [PovmOps.add, Function.update_of_ne (Ne.symm h)]
      rw [ho]
      refine ⟨?_, ?_⟩
      · intro r hr' d hd
        rw [hr r hr'] at hd
        exact ih1 r hr' d hd
      · intro r hr1 r' hr2 d d' hd hd' hid
        rw [hr r hr1] at hd
        rw [hr r' hr2] at hd'
        exact ih2 r hr1 r' hr2 d d' hd hd' hid

end Ids

end JVMC
