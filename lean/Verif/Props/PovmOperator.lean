import Verif.Lemmas.PovmCompile
import Verif.Spec.Operators
import Verif.Lemmas.PovmRegistry

/-!
# Properties of the POVM operator registry and of `POVMOperator` (C39, C40)

`compilePovm` and `povmSPrimes` are the model of `POVMOperator.compile` and of the function it
returns; `elementOf` adds up the matrix elements that a list of (configuration, value) pairs gives to
one configuration; `onSites` is the specification of "a local operator acting on some sites".
-/

namespace JVMC

open Spec

/-! ## C39 -/

/-- C39: whatever has been added before, an operator name in use is refused with `ValueError` and
nothing changes. -/
theorem c39_used_name {V : Type} (U D : PyDict V) (hU : (U.map Prod.fst).Nodup)
    (hD : (D.map Prod.fst).Nodup) (calls : List (RegKind × String × V)) (kind : RegKind)
    (name : String) (ω A : V)
    (hA : ((PovmReg.standard U D).run calls).operators.get? name = some A) :
    ((PovmReg.standard U D).run calls).add kind name ω
      = ((PovmReg.standard U D).run calls, .error .valueError) :=
  PovmReg.add_used (PovmReg.inv_run (PovmReg.inv_standard U D hU hD) calls) kind name ω A hA

/-- C39: a new name is accepted, the matrix is stored under it, every other name is unaffected. -/
theorem c39_new_name {V : Type} (U D : PyDict V) (hU : (U.map Prod.fst).Nodup)
    (hD : (D.map Prod.fst).Nodup) (calls : List (RegKind × String × V)) (kind : RegKind)
    (name : String) (ω : V)
    (hA : ((PovmReg.standard U D).run calls).operators.get? name = none) :
    (((PovmReg.standard U D).run calls).add kind name ω).2 = .ok () ∧
      ∀ k, (((PovmReg.standard U D).run calls).add kind name ω).1.operators.get? k
        = if k = name then some ω else ((PovmReg.standard U D).run calls).operators.get? k :=
  PovmReg.add_new (PovmReg.inv_run (PovmReg.inv_standard U D hU hD) calls) kind name ω hA

/-- C39: a matrix once registered stays registered, through every later history of calls. -/
theorem c39_names_keep {V : Type} (U D : PyDict V) (hU : (U.map Prod.fst).Nodup)
    (hD : (D.map Prod.fst).Nodup) (calls later : List (RegKind × String × V)) (name : String) (A : V)
    (hA : ((PovmReg.standard U D).run calls).operators.get? name = some A) :
    ((PovmReg.standard U D).run (calls ++ later)).operators.get? name = some A := by
  have hinv := PovmReg.inv_run (PovmReg.inv_standard U D hU hD) calls
  rw [PovmReg.run, List.foldl_append]
  change (PovmReg.run (PovmReg.run (PovmReg.standard U D) calls) later).operators.get? name = some A
  generalize PovmReg.run (PovmReg.standard U D) calls = r at hA hinv
  induction later generalizing r with
  | nil => exact hA
  | cons c later ih =>
    refine ih (r.add c.1 c.2.1 c.2.2).1 ?_ (PovmReg.inv_add hinv _ _ _)
    cases hc : r.operators.get? c.2.1 with
    | some B => rw [PovmReg.add_used hinv _ _ _ B hc]; exact hA
    | none =>
      rw [(PovmReg.add_new hinv c.1 c.2.1 c.2.2 hc).2 name]
      rw [if_neg]
      · exact hA
      · intro h; rw [h, hc] at hA; cases hA

/-- C39: the operators available at the start are the standard ones. -/
theorem c39_standard {V : Type} (U D : PyDict V) (hU : (U.map Prod.fst).Nodup)
    (hD : (D.map Prod.fst).Nodup) (name : String) :
    (PovmReg.standard U D).operators.get? name = (D.get? name).or (U.get? name) := by
  rw [(PovmReg.inv_standard U D hU hD).get? name]
  simp [PovmReg.standard, PovmReg.updateOperators, PyDict.get?]

example : ((PovmReg.standard [("X", 1), ("Y", 2)] [("decaydown", (3 : ℤ))]).run
    [(.unitary, "A", 7), (.imaginary, "X", 8), (.imaginary, "B", 9)]).operators
    = [("X", 1), ("Y", 2), ("A", 7), ("decaydown", 3), ("B", 9)] := by decide

/-- Not a history of `add_…` calls: an operator written directly into `povm.operators` (which the error
message of povm.py:286 mentions as a possibility) disappears with the next successful `add_…` call. -/
theorem c39_direct_insert_lost : ∃ (r : PovmReg ℤ) (name : String),
    r = (PovmReg.standard [("X", 1)] []).direct name 5 ∧ r.operators.get? name = some 5 ∧
    (r.add .unitary "A" 7).1.operators.get? name = none := by
  refine ⟨(PovmReg.standard [("X", 1)] []).direct "mine" 5, "mine", rfl, by decide, by decide⟩

/-! ## C40 -/

section Compile

variable {N : ℕ} {R : Type} [Ring R]

/-- C40: for every list of terms (each on distinct sites, with a matrix of the right size registered
under its name) whose identifiers tell terms on different sites apart, `compile` succeeds, for every
order in which Python enumerates a set, and the compiled operator is the sum over the terms of strength
times the local matrix on the term's sites: each term exactly once. -/
theorem c40_compile_partial (operators : String → Option (ℕ × LocMat R)) (matOf : String → LocMat R)
    (enum : List (List (Fin N)) → List (List (Fin N))) (henum : ∀ l x, x ∈ enum l ↔ x ∈ l)
    (ops : List (OpDict N R)) (h0 : ops ≠ [])
    (hok : ∀ op ∈ ops, op.sites ≠ [] ∧ op.sites.Nodup ∧
      operators op.name = some (op.sites.length, matOf op.name))
    (hid : ∀ a ∈ ops, ∀ b ∈ ops, a.id = b.id → a.sites = b.sites) :
    ∃ c, compilePovm operators enum ops = .ok c ∧ ∀ s s',
      elementOf (povmSPrimes c s) s'
        = (ops.map fun op => op.strength * onSites op.sites (matOf op.name) s s').sum := by
  obtain ⟨c, h1, h2, h3⟩ := compilePovm_ok operators matOf enum henum ops h0 hok hid
  refine ⟨c, h1, fun s s' => ?_⟩
  obtain ⟨m, cs⟩ := c
  rw [elementOf_povmSPrimes m cs h2]
  exact h3 s s'

/-- C40, for every history of `add` calls on any number of operator objects in which no dictionary is
given to two different operators: the action of each non-empty compiled operator is the sum over the
terms added to it (a dictionary added twice counts twice). -/
theorem c40_history_partial (operators : String → Option (ℕ × LocMat R)) (matOf : String → LocMat R)
    (enum : List (List (Fin N)) → List (List (Fin N))) (henum : ∀ l x, x ∈ enum l ↔ x ∈ l)
    (heap : List (OpDict N R)) (calls : List (ℕ × Fin heap.length))
    (hown : ∀ c ∈ calls, ∀ c' ∈ calls, c.2 = c'.2 → c.1 = c'.1)
    (hok : ∀ op ∈ heap, op.sites ≠ [] ∧ op.sites.Nodup ∧
      operators op.name = some (op.sites.length, matOf op.name))
    (o : ℕ) (ho : ∃ c ∈ calls, c.1 = o) :
    ∃ c, compilePovm operators enum
        (((PovmOps.fresh heap).run (calls.map fun c => (c.1, c.2.val))).dicts o) = .ok c ∧
      ∀ s s', elementOf (povmSPrimes c s) s'
        = ((calls.filter fun c => decide (c.1 = o)).map fun c =>
            heap[c.2].strength * onSites heap[c.2].sites (matOf heap[c.2].name) s s').sum := by
  set calls' := calls.map fun c => (c.1, c.2.val) with hcalls'
  set w := (PovmOps.fresh heap).run calls' with hw
  have hops : w.ops o = (calls.filter fun c => decide (c.1 = o)).map fun c => c.2.val := by
    rw [hw, PovmOps.run_ops, hcalls', List.filter_map, List.map_map]
    rfl
  have hdata := PovmOps.run_heap heap calls'
  rw [← hw] at hdata
  have hids := (PovmOps.run_ids heap calls' (by
    intro c hc c' hc' h
    obtain ⟨a, ha, rfl⟩ := List.mem_map.mp hc
    obtain ⟨b, hb, rfl⟩ := List.mem_map.mp hc'
    exact hown a ha b hb (Fin.ext h)) o).2
  rw [← hw] at hids
  -- every dictionary of the operator comes from the heap
  have hmem : ∀ d ∈ w.dicts o, ∃ r ∈ w.ops o, w.heap[r]? = some d := by
    intro d hd
    obtain ⟨r, hr, h⟩ := List.mem_filterMap.mp hd
    exact ⟨r, hr, h⟩
  have hget : ∀ (r : ℕ) (d : OpDict N R), w.heap[r]? = some d → ∃ d0 ∈ heap, d0.data = d.data := by
    intro r d h
    have := hdata r
    rw [h] at this
    cases hh : heap[r]? with
    | none => rw [hh] at this; simp at this
    | some d0 =>
      rw [hh] at this
      simp only [Option.map_some, Option.some.injEq] at this
      exact ⟨d0, List.mem_of_getElem? hh, this.symm⟩
  have hterms : ∀ op ∈ w.dicts o, op.sites ≠ [] ∧ op.sites.Nodup ∧
      operators op.name = some (op.sites.length, matOf op.name) := by
    intro op hop
    obtain ⟨r, _, h⟩ := hmem op hop
    obtain ⟨d0, hd0, h'⟩ := hget r op h
    have n1 : d0.name = op.name := congrArg Prod.fst h'
    have n3 : d0.sites = op.sites := congrArg (fun x => x.2.2) h'
    rw [← n1, ← n3]
    exact hok d0 hd0
  have hsum : ∀ (g : String × R × List (Fin N) → R),
      ((w.dicts o).map fun d => g d.data).sum
        = ((calls.filter fun c => decide (c.1 = o)).map fun c => g heap[c.2].data).sum := by
    intro g
    unfold PovmOps.dicts
    rw [hops]
    generalize calls.filter (fun c => decide (c.1 = o)) = l
    induction l with
    | nil => rfl
    | cons c l ih =>
      have hc := hdata c.2.val
      have hc' : heap[c.2.val]? = some heap[c.2] := by simp
      rw [hc'] at hc
      cases hh : w.heap[c.2.val]? with
      | none => rw [hh] at hc; simp at hc
      | some d =>
        rw [hh] at hc
        simp only [Option.map_some, Option.some.injEq] at hc
        rw [List.map_cons, List.filterMap_cons_some hh, List.map_cons, List.sum_cons, ih, List.map_cons,
          List.sum_cons, hc]
  obtain ⟨c, h1, h2⟩ := c40_compile_partial operators matOf enum henum (w.dicts o)
    (by
      obtain ⟨c, hc, hco⟩ := ho
      intro hnil
      have hm : c.2.val ∈ w.ops o := by
        rw [hops]
        exact List.mem_map.mpr ⟨c, List.mem_filter.mpr ⟨hc, by simpa using hco⟩, rfl⟩
      unfold PovmOps.dicts at hnil
      rw [List.filterMap_eq_nil_iff] at hnil
      have h1 := hnil _ hm
      have h2 := hdata c.2.val
      rw [h1] at h2
      simp at h2)
    hterms (by
      intro a ha b hb hab
      obtain ⟨r, hr, h⟩ := hmem a ha
      obtain ⟨r', hr', h'⟩ := hmem b hb
      have := hids r hr r' hr' a b h h' hab
      rw [this, h'] at h
      rw [Option.some.inj h])
  refine ⟨c, h1, fun s s' => ?_⟩
  rw [h2 s s']
  exact hsum fun x => x.2.1 * onSites x.2.2 (matOf x.1) s s'

/-- An operator without terms cannot be compiled: `max` of an empty sequence. -/
theorem c40_empty (operators : String → Option (ℕ × LocMat R))
    (enum : List (List (Fin N)) → List (List (Fin N))) :
    compilePovm operators enum ([] : List (OpDict N R)) = .error (.raises .valueError) := rfl

end Compile

/-- A two-body matrix over `ℤ` for the examples: swaps nothing, marks equal outcomes. -/
def exampleOps : String → Option (ℕ × LocMat ℤ)
  | "zz" => some (2, fun s t => if s = t ∧ s.head? = s.getLast? then 1 else 0)
  | "z" => some (1, fun s t => if s = t then 2 else 0)
  | _ => none

/-- Case: two operators, three two-body terms and a one-body term that is merged into one of them. -/
example : (compilePovm exampleOps List.dedup
    (((PovmOps.fresh [(⟨"zz", 1, [0, 1], 0⟩ : OpDict 3 ℤ), ⟨"zz", 3, [0, 2], 0⟩, ⟨"z", 5, [0], 0⟩,
      ⟨"zz", 7, [1, 2], 0⟩]).run [(0, 0), (0, 1), (0, 2), (1, 3)]).dicts 0)).toOption.map
      (fun c => elementOf (povmSPrimes c ![1, 1, 1]) ![1, 1, 1]) = some 14 := by decide

/-- The restriction in `c40_history_partial` cannot be dropped: `add` writes the identifier into the caller's
dictionary, so adding a term to a second operator can make its identifier collide with that of another
term of the first one, and `compile` then silently drops a term. Here the first operator is
`1·zz(0,1) + 3·zz(0,2)`; after the second term has also been added to another operator, the first one
compiles to `3·zz(0,2)` or `1·zz(0,1)` alone instead of giving 4 on the diagonal. -/
theorem c40_shared_dictionary_loses_term :
    ∃ (heap : List (OpDict 3 ℤ)) (s : Config 3 4),
      heap = [⟨"zz", 1, [0, 1], 0⟩, ⟨"zz", 3, [0, 2], 0⟩] ∧
      (compilePovm exampleOps List.dedup (((PovmOps.fresh heap).run [(0, 0), (0, 1)]).dicts 0)).toOption.map
        (fun c => elementOf (povmSPrimes c s) s) = some 4 ∧
      (compilePovm exampleOps List.dedup
        (((PovmOps.fresh heap).run [(0, 0), (0, 1), (1, 1)]).dicts 0)).toOption.map
        (fun c => elementOf (povmSPrimes c s) s) = some 1 := by
  refine ⟨[⟨"zz", 1, [0, 1], 0⟩, ⟨"zz", 3, [0, 2], 0⟩], ![1, 1, 1], rfl, by decide, by decide⟩

end JVMC
