import Verif.Lemmas.ParamDict
import Verif.Props.Vqs

/-!
# C128: parameters as nested dictionaries
-/

namespace JVMC

open Spec

/-- Calls that may change the parameters; `setter` is `psi.params = t`. -/
inductive DictOp where
  | eval
  | set (P : DictArg)
  | update (v : List ℝ)
  | setter (t : PTree)

/-- One call. -/
noncomputable def dictStep (frozen : Bool) (p₀ : PTree) (st : Option DictNqs) : DictOp → DictCall Unit
  | .eval => dictInit frozen p₀ st
  | .set P => dictSetP P st
  | .update v => dictUpdate v st
  | .setter t => dictSetter t st

/-- The object after a history of calls; exceptions are caught by the caller. `p₀` is what `net.init` returns, a
`FrozenDict` if `frozen`. -/
noncomputable def dictRun (frozen : Bool) (p₀ : PTree) (ops : List DictOp) : Option DictNqs :=
  ops.foldl (fun st op => (dictStep frozen p₀ st op).2) none

/-- The keys of every dictionary are different. -/
def PTree.IsDict : PTree → Prop
  | .real t => Spec.IsDict t
  | .cpx t => Spec.IsDict t

/-- `t[k₁][k₂]...` has as many entries. -/
def PTree.lengthAt : PTree → List String → Option ℕ
  | .real t, p => (lookup t p).map List.length
  | .cpx t, p => (lookup t p).map List.length

/-- `v` holds the entries of the arrays of a tree, in the order of the paths to the arrays; real parts before imaginary
parts for every complex array. -/
def PTree.Lists : PTree → List ℝ → Prop
  | .real t, v => ∃ L, InOrder t L ∧ v = L.flatten
  | .cpx t, v => ∃ L, InOrder t L ∧ v = L.flatMap fun a => a.map Complex.re ++ a.map Complex.im

/-- Equal dictionaries in the sense of Python: the same arrays at the same keys, in any order. -/
def PTree.Same : PTree → PTree → Prop
  | .real t, .real t' => ∀ p, lookup t p = lookup t' p
  | .cpx t, .cpx t' => ∀ p, lookup t p = lookup t' p
  | _, _ => False

/-- `t` is a tree with the structure, the shapes and the kind of numbers of `p₀`. -/
structure TreeFits (p₀ t : PTree) : Prop where
  dict : t.IsDict
  treeDef : t.treeDef = p₀.treeDef
  isReal : t.toParams.isReal = p₀.toParams.isReal
  sizes : t.toParams.sizes = p₀.toParams.sizes

/-- Trees that are passed fit to the network. -/
def DictOp.Fits (p₀ : PTree) : DictOp → Prop
  | .set (.frozen t) => TreeFits p₀ t
  | .setter t => TreeFits p₀ t
  | _ => True

/-- The same call in the model which keeps only the list of the leaves. Plain dictionaries are refused. -/
def DictOp.onLeaves : DictOp → List NqsOp
  | .eval => [.eval]
  | .set (.frozen t) => [.set (.dict t.toParams)]
  | .set (.plain _) => []
  | .set (.vec v) => [.set (.vec v)]
  | .update v => [.update v]
  | .setter t => [.set (.dict t.toParams)]

/-- The leaves of the parameters of an object. -/
def DictNqs.onLeaves (s : DictNqs) : NqsInit := ⟨s.realParams, s.sizes, s.params.toParams⟩

/-- What stays true of an object. -/
structure DictInv (frozen : Bool) (p₀ : PTree) (s : DictNqs) : Prop where
  realParams : s.realParams = p₀.toParams.isReal
  sizes : s.sizes = p₀.toParams.sizes
  treeDef : s.treeDef = p₀.treeDef
  kind : s.frozen = frozen
  params : TreeFits p₀ s.params

section steps

variable {frozen : Bool} {p₀ : PTree}

theorem pTree_unflatten {p t : PTree} (h : t.IsDict) (l : List (List ℝ))
    (hl : l.length = t.toParams.sizes.length) (hp : t.treeDef = p.treeDef) :
    ∃ t' : PyTree (List ℝ) true, PyTree.unflatten p.treeDef l = .ok t' ∧ t'.flatten = l ∧
      t'.structure' = p.treeDef ∧ Spec.IsDict t' := by
  rw [← hp]
  cases t with
  | real t => exact PyTree.unflatten_ok h l (by simpa [PTree.toParams, Params.sizes] using hl)
  | cpx t => exact PyTree.unflatten_ok h l (by simpa [PTree.toParams, Params.sizes] using hl)

theorem pTree_unflatten_cpx {p t : PTree} (h : t.IsDict) (l : List (List ℂ))
    (hl : l.length = t.toParams.sizes.length) (hp : t.treeDef = p.treeDef) :
    ∃ t' : PyTree (List ℂ) true, PyTree.unflatten p.treeDef l = .ok t' ∧ t'.flatten = l ∧
      t'.structure' = p.treeDef ∧ Spec.IsDict t' := by
  rw [← hp]
  cases t with
  | real t => exact PyTree.unflatten_ok h l (by simpa [PTree.toParams, Params.sizes] using hl)
  | cpx t => exact PyTree.unflatten_ok h l (by simpa [PTree.toParams, Params.sizes] using hl)

/-- A tree built from leaves that fit. -/
theorem tree_of_leaves {t : PTree} (ht : TreeFits p₀ t) (q : Params) (h1 : q.isReal = p₀.toParams.isReal)
    (h2 : q.sizes = p₀.toParams.sizes) :
    ∃ t' : PTree, (match q with
      | .real l => (do return .real (← PyTree.unflatten p₀.treeDef l) : Except PyErr PTree)
      | .cpx l => do return .cpx (← PyTree.unflatten p₀.treeDef l)) = .ok t' ∧ t'.toParams = q ∧ TreeFits p₀ t' := by
  have hlen := congrArg List.length (h2.trans ht.sizes.symm)
  cases q with
  | real l =>
    obtain ⟨t', u1, u2, u3, u4⟩ := pTree_unflatten ht.dict l (by simpa [Params.sizes] using hlen) ht.treeDef
    refine ⟨.real t', ?_, by rw [PTree.toParams, u2], u4, u3, ?_, ?_⟩
    · dsimp only
      rw [u1]
      rfl
    · rw [PTree.toParams, u2, h1]
    · rw [PTree.toParams, u2, h2]
  | cpx l =>
    obtain ⟨t', u1, u2, u3, u4⟩ := pTree_unflatten_cpx ht.dict l (by simpa [Params.sizes] using hlen) ht.treeDef
    refine ⟨.cpx t', ?_, by rw [PTree.toParams, u2], u4, u3, ?_, ?_⟩
    · dsimp only
      rw [u1]
      rfl
    · rw [PTree.toParams, u2, h1]
    · rw [PTree.toParams, u2, h2]

theorem dictUnflatten_eq {s : DictNqs} (hs : DictInv frozen p₀ s) (v : List ℝ) :
    match paramUnflatten s.realParams s.sizes v with
    | .error e => dictUnflatten s v = .error e
    | .ok q => ∃ t, dictUnflatten s v = .ok t ∧ t.toParams = q ∧ TreeFits p₀ t := by
  cases hu : paramUnflatten s.realParams s.sizes v with
  | error e =>
    unfold dictUnflatten
    rw [hu]
    rfl
  | ok q =>
    obtain ⟨u1, u2⟩ := unflatten_struct _ _ _ _ hu
    obtain ⟨t, h1, h2, h3⟩ := tree_of_leaves hs.params q (u1.trans hs.realParams) (u2.trans hs.sizes)
    refine ⟨t, ?_, h2, h3⟩
    unfold dictUnflatten
    rw [hu, hs.treeDef]
    exact h1

theorem dictAdd_eq {s : DictNqs} (hs : DictInv frozen p₀ s) {d : PTree} (hd : TreeFits p₀ d) :
    ∃ t, dictAdd s.params d = .ok t ∧ addParams s.params.toParams d.toParams = .ok t.toParams ∧ TreeFits p₀ t := by
  obtain ⟨r, hr, r1, r2, -⟩ := addParams_ok s.params.toParams d.toParams (by rw [hs.params.isReal, hd.isReal])
    (by rw [hs.params.sizes, hd.sizes])
  obtain ⟨t, h1, h2, h3⟩ := tree_of_leaves hs.params r (r1.trans hs.params.isReal) (r2.trans hs.params.sizes)
  refine ⟨t, ?_, by rw [hr, h2], h3⟩
  unfold dictAdd
  rw [if_pos (hs.params.treeDef.trans hd.treeDef.symm), hr, hs.params.treeDef]
  exact h1

/-- One call on both models. -/
theorem dict_step (hp : p₀.IsDict) {st : Option DictNqs} (hst : ∀ s, st = some s → DictInv frozen p₀ s) {op : DictOp}
    (hop : op.Fits p₀) :
    (∀ s, (dictStep frozen p₀ st op).2 = some s → DictInv frozen p₀ s) ∧
      (dictStep frozen p₀ st op).2.map DictNqs.onLeaves
        = op.onLeaves.foldl (nqsStep p₀.toParams) (st.map DictNqs.onLeaves) := by
  have hfit : TreeFits p₀ p₀ := ⟨hp, rfl, rfl, rfl⟩
  cases st with
  | none =>
    cases op with
    | eval => exact ⟨(by rintro s h; cases h; exact ⟨rfl, rfl, rfl, rfl, hfit⟩), rfl⟩
    | set P => cases P <;> exact ⟨(by rintro s h; cases h), rfl⟩
    | update v => exact ⟨(by rintro s h; cases h), rfl⟩
    | setter t => exact ⟨(by rintro s h; cases h), rfl⟩
  | some s =>
    have hs := hst s rfl
    cases op with
    | eval => exact ⟨(by rintro s h; cases h; exact hs), rfl⟩
    | setter t => exact ⟨(by rintro s h; cases h; exact ⟨hs.1, hs.2, hs.3, hs.4, hop⟩), rfl⟩
    | set P =>
      cases P with
      | frozen t => exact ⟨(by rintro s h; cases h; exact ⟨hs.1, hs.2, hs.3, hs.4, hop⟩), rfl⟩
      | plain t => exact ⟨(by rintro s h; cases h; exact hs), rfl⟩
      | vec v =>
        have hu := dictUnflatten_eq hs v
        simp only [dictStep, dictSetP, DictOp.onLeaves, List.foldl_cons, List.foldl_nil, nqsStep, Option.map_some, call_setVec,
          DictNqs.onLeaves]
        cases h : paramUnflatten s.realParams s.sizes v with
        | error e =>
          rw [h] at hu
          dsimp only at hu
          rw [hu]
          exact ⟨(by rintro s h; cases h; exact hs), rfl⟩
        | ok q =>
          rw [h] at hu
          obtain ⟨t, h1, rfl, h3⟩ := hu
          rw [h1]
          exact ⟨(by rintro s h; cases h; exact ⟨hs.1, hs.2, hs.3, hs.4, h3⟩), rfl⟩
    | update v =>
      have hu := dictUnflatten_eq hs v
      simp only [dictStep, dictUpdate, DictOp.onLeaves, List.foldl_cons, List.foldl_nil, nqsStep, Option.map_some, call_update,
        DictNqs.onLeaves]
      cases h : paramUnflatten s.realParams s.sizes v with
      | error e =>
        rw [h] at hu
        dsimp only at hu
        rw [hu]
        exact ⟨(by rintro s h; cases h; exact hs), rfl⟩
      | ok q =>
        rw [h] at hu
        obtain ⟨d, h1, rfl, h3⟩ := hu
        obtain ⟨t, a1, a2, a3⟩ := dictAdd_eq hs h3
        rw [h1]
        dsimp only
        rw [a1, a2]
        exact ⟨(by rintro s h; cases h; exact ⟨hs.1, hs.2, hs.3, hs.4, a3⟩), rfl⟩

theorem dict_run (hp : p₀.IsDict) (ops : List DictOp) (hops : ∀ op ∈ ops, op.Fits p₀) :
    (∀ s, dictRun frozen p₀ ops = some s → DictInv frozen p₀ s) ∧
      (dictRun frozen p₀ ops).map DictNqs.onLeaves = nqsRun p₀.toParams (ops.flatMap DictOp.onLeaves) := by
  unfold dictRun nqsRun
  suffices H : ∀ st : Option DictNqs, (∀ s, st = some s → DictInv frozen p₀ s) →
      (∀ s, ops.foldl (fun st op => (dictStep frozen p₀ st op).2) st = some s → DictInv frozen p₀ s) ∧
        (ops.foldl (fun st op => (dictStep frozen p₀ st op).2) st).map DictNqs.onLeaves
          = (ops.flatMap DictOp.onLeaves).foldl (nqsStep p₀.toParams) (st.map DictNqs.onLeaves) from
    H none (by simp)
  induction ops with
  | nil => exact fun st h => ⟨h, rfl⟩
  | cons op ops ih =>
    intro st h
    obtain ⟨h1, h2⟩ := dict_step hp h (hops op List.mem_cons_self)
    obtain ⟨i1, i2⟩ := ih (fun o ho => hops o (List.mem_cons_of_mem _ ho)) _ h1
    rw [List.foldl_cons, List.flatMap_cons, List.foldl_append, ← h2]
    exact ⟨i1, i2⟩

end steps

/-- **C128**: after every history of calls the leaves of the parameters are those of the model that keeps only the list of
the leaves, and so is what the next call does: all that is proved about that model (C11, C22, C25, C63) holds for nested
dictionaries. -/
theorem c128_leaves (frozen : Bool) (p₀ : PTree) (hp : p₀.IsDict) (ops : List DictOp) (hops : ∀ op ∈ ops, op.Fits p₀) :
    (dictRun frozen p₀ ops).map DictNqs.onLeaves = nqsRun p₀.toParams (ops.flatMap DictOp.onLeaves) ∧
    ∀ v, ((dictSetP (.vec v) (dictRun frozen p₀ ops)).1
        = ((setParameters (.vec v)).call (nqsRun p₀.toParams (ops.flatMap DictOp.onLeaves))).1) ∧
      (dictUpdate v (dictRun frozen p₀ ops)).1
        = ((updateParameters v).call (nqsRun p₀.toParams (ops.flatMap DictOp.onLeaves))).1 := by
  obtain ⟨h1, h2⟩ := dict_run (frozen := frozen) hp ops hops
  refine ⟨h2, fun v => ?_⟩
  rw [← h2]
  cases hs : dictRun frozen p₀ ops with
  | none => exact ⟨rfl, rfl⟩
  | some s =>
    have hi := h1 s hs
    have hu := dictUnflatten_eq hi v
    rw [Option.map_some, call_setVec, call_update]
    simp only [dictSetP, dictUpdate, DictNqs.onLeaves]
    cases h : paramUnflatten s.realParams s.sizes v with
    | error e =>
      rw [h] at hu
      dsimp only at hu
      rw [hu]
      exact ⟨rfl, rfl⟩
    | ok q =>
      rw [h] at hu
      obtain ⟨d, h1, rfl, h3⟩ := hu
      obtain ⟨t, a1, a2, a3⟩ := dictAdd_eq hi h3
      rw [h1]
      dsimp only
      rw [a1, a2]
      exact ⟨rfl, rfl⟩

theorem lists_flatten (t : PTree) (ht : t.IsDict) : t.Lists (flattenParams t.toParams) := by
  cases t with
  | real t => exact ⟨_, PyTree.flatten_inOrder t ht, rfl⟩
  | cpx t => exact ⟨_, PyTree.flatten_inOrder t ht, rfl⟩

/-- **C128**: `get_parameters` lists the entries in the order of the paths. -/
theorem c128_vector (frozen : Bool) (p₀ : PTree) (hp : p₀.IsDict) (h₀ : p₀.toParams.sizes ≠ []) (ops : List DictOp)
    (hops : ∀ op ∈ ops, op.Fits p₀) (s : DictNqs) (hs : dictRun frozen p₀ ops = some s) :
    ∃ v, dictGetP (some s) = (.ok (some v), some s) ∧ s.params.Lists v := by
  have hi := (dict_run hp ops hops).1 s hs
  refine ⟨_, ?_, lists_flatten s.params hi.params.dict⟩
  unfold dictGetP
  dsimp only
  rw [if_neg (by rwa [hi.params.sizes])]

/-- **C128**: every array stays at its place and keeps its size. -/
theorem c128_shapes (frozen : Bool) (p₀ : PTree) (hp : p₀.IsDict) (ops : List DictOp) (hops : ∀ op ∈ ops, op.Fits p₀)
    (s : DictNqs) (hs : dictRun frozen p₀ ops = some s) (p : List String) : s.params.lengthAt p = p₀.lengthAt p := by
  obtain ⟨h1, h2, h3, h4⟩ := ((dict_run hp ops hops).1 s hs).params
  generalize s.params = t at h1 h2 h3 h4
  cases t with
  | real t =>
    cases p₀ with
    | real t₀ => exact PyTree.lookup_length h1 hp h2 h4 p
    | cpx t₀ => cases h3
  | cpx t =>
    cases p₀ with
    | real t₀ => cases h3
    | cpx t₀ => exact PyTree.lookup_length h1 hp h2 h4 p

/-- **C128**: `set_parameters(v)` writes the entries of `v` in the order of the paths. -/
theorem c128_set_vector (frozen : Bool) (p₀ : PTree) (hp : p₀.IsDict) (ops : List DictOp) (hops : ∀ op ∈ ops, op.Fits p₀)
    (hinit : dictRun frozen p₀ ops ≠ none) (v : List ℝ) (hv : v.length = (flattenParams p₀.toParams).length) :
    ∃ s, dictSetP (.vec v) (dictRun frozen p₀ ops) = (.ok (), some s) ∧ s.params.Lists v ∧
      ∀ p, s.params.lengthAt p = p₀.lengthAt p := by
  cases hst : dictRun frozen p₀ ops with
  | none => exact absurd hst hinit
  | some s =>
    have hi := (dict_run hp ops hops).1 s hst
    have hu := dictUnflatten_eq hi v
    obtain ⟨q, hq, -, -, h3⟩ := paramUnflatten_ok s.realParams s.sizes v
      (by rw [hv, flatten_length_params, hi.realParams, hi.sizes])
    rw [hq] at hu
    obtain ⟨t, t1, rfl, t3⟩ := hu
    have hset : dictSetP (.vec v) (some s) = (.ok (), some { s with params := t }) := by
      simp only [dictSetP]
      rw [t1]
      rfl
    refine ⟨_, hset, ?_, fun p => ?_⟩
    · have := lists_flatten t t3.dict
      rwa [h3] at this
    · refine c128_shapes frozen p₀ hp (ops ++ [.set (.vec v)]) (fun o ho => ?_) _ ?_ p
      · rcases List.mem_append.mp ho with h | h
        · exact hops o h
        · rw [List.mem_singleton.mp h]
          exact trivial
      · unfold dictRun at hst ⊢
        rw [List.foldl_append, hst, List.foldl_cons, List.foldl_nil]
        exact congrArg Prod.snd hset

/-- **C128**: the order in which the items of dictionaries were inserted plays no role. -/
theorem c128_order (t t' : PTree) (h : t.IsDict) (h' : t'.IsDict) (heq : t.Same t') (st : Option DictNqs) :
    (dictGetP (dictSetP (.frozen t) st).2).1 = (dictGetP (dictSetP (.frozen t') st).2).1 := by
  have : t.toParams = t'.toParams := by
    cases t with
    | real t =>
      cases t' with
      | real t' =>
        exact congrArg Params.real (PyTree.inOrder_unique heq (PyTree.flatten_inOrder t h) (PyTree.flatten_inOrder t' h'))
      | cpx t' => exact heq.elim
    | cpx t =>
      cases t' with
      | real t' => exact heq.elim
      | cpx t' =>
        exact congrArg Params.cpx (PyTree.inOrder_unique heq (PyTree.flatten_inOrder t h) (PyTree.flatten_inOrder t' h'))
  cases st with
  | none => rfl
  | some s =>
    simp only [dictSetP, dictSetter, dictGetP]
    rw [this]
    split <;> rfl

/-- **C128**: giving back what `psi.params` returned changes nothing, if it is assigned to `psi.params`, if it is frozen
before it is given to `set_parameters`, or if the parameters of the network are a `FrozenDict`. -/
theorem c128_params_partial (frozen : Bool) (p₀ : PTree) (hp : p₀.IsDict) (ops : List DictOp) (hops : ∀ op ∈ ops, op.Fits p₀)
    (s : DictNqs) (hs : dictRun frozen p₀ ops = some s) :
    dictSetter s.params (some s) = (.ok (), some s) ∧ dictSetP (.frozen s.params) (some s) = (.ok (), some s) ∧
      (frozen = true → ∃ P, dictParams (some s) = some P ∧ dictSetP P (some s) = (.ok (), some s)) := by
  have hi := (dict_run hp ops hops).1 s hs
  refine ⟨rfl, rfl, fun hf => ⟨.frozen s.params, ?_, rfl⟩⟩
  unfold dictParams
  dsimp only
  rw [hi.kind, hf]
  rfl

/-- **C128** is false for the versions of flax that setup.py asks for, in which parameters are plain dictionaries: after
every history of calls that initialised the network, `psi.set_parameters(psi.params)` raises a TypeError. -/
theorem c128_params_violated (p₀ : PTree) (hp : p₀.IsDict) (ops : List DictOp) (hops : ∀ op ∈ ops, op.Fits p₀) (s : DictNqs)
    (hs : dictRun false p₀ ops = some s) :
    ∃ P, dictParams (some s) = some P ∧ dictSetP P (some s) = (.error .typeError, some s) := by
  have hi := (dict_run hp ops hops).1 s hs
  refine ⟨.plain s.params, ?_, rfl⟩
  unfold dictParams
  dsimp only
  rw [hi.kind]
  rfl

/-- **C128**: trees of a wrong structure are not refused: an empty one is accepted by `set_parameters`, and after it
`get_parameters` raises a ValueError. -/
theorem c128_structure_violated (s : DictNqs) :
    ∃ t, (dictSetP (.frozen t) (some s)).1 = .ok () ∧
      (dictGetP (dictSetP (.frozen t) (some s)).2).1 = .error .valueError :=
  ⟨.real (.dict .nil), rfl, rfl⟩

/-- A layer with two arrays which were inserted in an order that is not the alphabetic one. -/
noncomputable def layerTree (a b : List ℂ) : PTree :=
  .cpx (.dict (.cons "Dense_0" (.dict (.cons "kernel" (.leaf a) (.cons "bias" (.leaf b) .nil))) .nil))

theorem layerTree_isDict (a b : List ℂ) : (layerTree a b).IsDict := by
  refine ⟨by simp [dictKeys], ⟨by simp [dictKeys], trivial, by simp [dictKeys], trivial, trivial⟩, trivial⟩

theorem layerTree_params (a b : List ℂ) : (layerTree a b).toParams = .cpx [b, a] := by
  simp [layerTree, PTree.toParams, PyTree.flatten, PyTree.sortKeys, PyTree.insertItem, PyTree.leaves]

/-- Case for the theorems of C128: a network whose bias comes first in `get_parameters`, although it was inserted last;
trees that are set have the other order. -/
example (x y : ℝ) : ∃ s, dictRun false (layerTree [1, Complex.I] [2]) [.eval, .set (.vec [x, y, 1, 2, 3, 4]),
      .set (.frozen (layerTree [3, 4] [5])), .update [1, 0, 0, 0, 0, 0]] = some s ∧
    (∀ op ∈ [DictOp.eval, .set (.vec [x, y, 1, 2, 3, 4]), .set (.frozen (layerTree [3, 4] [5])),
      .update [1, 0, 0, 0, 0, 0]], op.Fits (layerTree [1, Complex.I] [2])) ∧
    (layerTree [1, Complex.I] [2]).toParams.sizes ≠ [] ∧ s.params.Lists [6, 0, 3, 4, 0, 0] ∧
    dictSetP (.plain s.params) (some s) = (.error .typeError, some s) := by
  have hops : ∀ op ∈ [DictOp.eval, .set (.vec [x, y, 1, 2, 3, 4]), .set (.frozen (layerTree [3, 4] [5])),
      .update [1, 0, 0, 0, 0, 0]], op.Fits (layerTree [1, Complex.I] [2]) := by
    intro op hop
    simp only [List.mem_cons, List.not_mem_nil, or_false] at hop
    rcases hop with rfl | rfl | rfl | rfl
    · exact trivial
    · exact trivial
    · refine ⟨layerTree_isDict _ _, ?_, by rw [layerTree_params, layerTree_params]; rfl,
        by rw [layerTree_params, layerTree_params]; rfl⟩
      simp [layerTree, PTree.treeDef, PyTree.structure', PyTree.sortKeys, PyTree.insertItem, PyTree.map]
    · exact trivial
  obtain ⟨h1, h2⟩ := dict_run (frozen := false) (layerTree_isDict [1, Complex.I] [2]) _ hops
  have hrun : nqsRun (.cpx [[2], [1, Complex.I]]) [.eval, .set (.vec [x, y, 1, 2, 3, 4]), .set (.dict (.cpx [[5], [3, 4]])),
      .update [1, 0, 0, 0, 0, 0]] = some ⟨false, [1, 2], .cpx [[6], [3, 4]]⟩ := by
    have hu : paramUnflatten false [1, 2] [1, 0, 0, 0, 0, 0] = .ok (.cpx [[1], [0, 0]]) := by
      have := flattenParams_unflatten (.cpx [[1], [0, 0]])
      simpa [Params.isReal, Params.sizes, flattenParams] using this
    have hv : paramUnflatten false [1, 2] [x, y, 1, 2, 3, 4] = .ok (.cpx [[⟨x, y⟩], [⟨1, 3⟩, ⟨2, 4⟩]]) := by
      have := flattenParams_unflatten (.cpx [[⟨x, y⟩], [⟨1, 3⟩, ⟨2, 4⟩]])
      simpa [Params.isReal, Params.sizes, flattenParams] using this
    have h1 : nqsRun (.cpx [[2], [1, Complex.I]]) [.eval, .set (.vec [x, y, 1, 2, 3, 4]), .set (.dict (.cpx [[5], [3, 4]]))]
        = some ⟨false, [1, 2], .cpx [[5], [3, 4]]⟩ := by
      have : ((setParameters (.vec [x, y, 1, 2, 3, 4])).call (some ⟨false, [1, 2], .cpx [[2], [1, Complex.I]]⟩)).2
          = some ⟨false, [1, 2], .cpx [[⟨x, y⟩], [⟨1, 3⟩, ⟨2, 4⟩]]⟩ := by
        rw [call_setVec]
        dsimp only
        rw [hv]
      change ((setParameters (.dict (.cpx [[5], [3, 4]]))).call ((setParameters (.vec [x, y, 1, 2, 3, 4])).call
        (some ⟨false, [1, 2], .cpx [[2], [1, Complex.I]]⟩)).2).2 = _
      rw [this]
      rfl
    change ((updateParameters [1, 0, 0, 0, 0, 0]).call (nqsRun (.cpx [[2], [1, Complex.I]])
      [.eval, .set (.vec [x, y, 1, 2, 3, 4]), .set (.dict (.cpx [[5], [3, 4]]))])).2 = _
    rw [h1, call_update]
    dsimp only
    rw [hu]
    norm_num [addParams]
  simp only [layerTree_params, List.flatMap_cons, List.flatMap_nil, DictOp.onLeaves, List.cons_append, List.nil_append] at h2
  rw [hrun, Option.map_eq_some_iff] at h2
  obtain ⟨s, hs, hl⟩ := h2
  refine ⟨s, hs, hops, by rw [layerTree_params]; simp [Params.sizes], ?_, rfl⟩
  have := lists_flatten s.params (h1 s hs).params.dict
  rw [show s.params.toParams = .cpx [[6], [3, 4]] from congrArg NqsInit.params hl] at this
  simpa [flattenParams] using this

/-- Case for `c128_order`. -/
example : (PTree.real (.dict (.cons "a" (.leaf [1]) (.cons "b" (.leaf [2, 3]) .nil)))).Same
    (.real (.dict (.cons "b" (.leaf [2, 3]) (.cons "a" (.leaf [1]) .nil)))) := by
  intro p
  cases p with
  | nil => rfl
  | cons x p =>
    simp only [lookup]
    by_cases ha : "a" = x
    · subst ha
      simp
    · rw [if_neg ha, if_neg ha]

end JVMC
