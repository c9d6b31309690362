import Mathlib.Order.Lex
import Mathlib.Data.String.Basic
import Verif.Model.Vqs

/-!
# Parameter trees as nested dictionaries

`Model/Vqs` keeps the leaves of a parameter tree only. Here a tree is what flax uses: dictionaries of dictionaries of
arrays, with the items in the order in which they were inserted. Arrays are their entries in `ravel` order.
-/

namespace JVMC

/-- Trees (`true`) and the items of a dictionary (`false`). (vqs.py:187-218: `net.init` returns such a tree) -/
inductive PyTree (A : Type) : Bool → Type where
  | leaf (a : A) : PyTree A true
  | dict (d : PyTree A false) : PyTree A true
  | nil : PyTree A false
  | cons (k : String) (v : PyTree A true) (rest : PyTree A false) : PyTree A false

namespace PyTree

variable {A B : Type}

/-- `tree_map`. (vqs.py:398-401) -/
def map (f : A → B) : {b : Bool} → PyTree A b → PyTree B b
  | _, .leaf a => .leaf (f a)
  | _, .dict d => .dict (d.map f)
  | _, .nil => .nil
  | _, .cons k v r => .cons k (v.map f) (r.map f)

/-- The leaves in the order of the items. (vqs.py:214-215) -/
def leaves : {b : Bool} → PyTree A b → List A
  | _, .leaf a => [a]
  | _, .dict d => d.leaves
  | _, .nil => []
  | _, .cons _ v r => v.leaves ++ r.leaves

/-- Put an item in front of the first with a larger key. (`sorted(keys)` in `tree_flatten`, vqs.py:214) -/
def insertItem (k : String) (v : PyTree A true) : PyTree A false → PyTree A false
  | .nil => .cons k v .nil
  | .cons k' v' r => if k ≤ k' then .cons k v (.cons k' v' r) else .cons k' v' (insertItem k v r)

/-- All dictionaries sorted by their keys, as `tree_flatten` goes through them. (vqs.py:214-215) -/
def sortKeys : {b : Bool} → PyTree A b → PyTree A b
  | _, .leaf a => .leaf a
  | _, .dict d => .dict d.sortKeys
  | _, .nil => .nil
  | _, .cons k v r => insertItem k v.sortKeys r.sortKeys

/-- `tree_flatten(t)[0]`. (vqs.py:214, 461, 464) -/
def flatten {b : Bool} (t : PyTree A b) : List A := t.sortKeys.leaves

/-- `tree_structure(t)`. (vqs.py:215) -/
def structure' {b : Bool} (t : PyTree A b) : PyTree Unit b := t.sortKeys.map fun _ => ()

/-- Put the leaves of a list into a tree one after the other, and what is left of the list. (vqs.py:444) -/
def fill : {b : Bool} → PyTree Unit b → List A → Option (PyTree A b × List A)
  | _, .leaf _, [] => none
  | _, .leaf _, a :: l => some (.leaf a, l)
  | _, .dict d, l =>
    match fill d l with
    | none => none
    | some (t, l) => some (.dict t, l)
  | _, .nil, l => some (.nil, l)
  | _, .cons k v r, l =>
    match fill v l with
    | none => none
    | some (v, l) =>
      match fill r l with
      | none => none
      | some (r, l) => some (.cons k v r, l)

/-- `tree_unflatten(treeDef, leaves)`; a ValueError for the wrong number of leaves. (vqs.py:444) -/
def unflatten (d : PyTree Unit true) (l : List A) : Except PyErr (PyTree A true) :=
  match fill d l with
  | some (t, []) => .ok t
  | _ => .error .valueError

end PyTree

/-- The parameters of a real or of a complex network; mixed ones are refused (C122). (vqs.py:193-194) -/
inductive PTree where
  | real (t : PyTree (List ℝ) true)
  | cpx (t : PyTree (List ℂ) true)

/-- The leaves. (vqs.py:214) -/
def PTree.toParams : PTree → Params
  | .real t => .real t.flatten
  | .cpx t => .cpx t.flatten

/-- `tree_structure`. (vqs.py:215) -/
def PTree.treeDef : PTree → PyTree Unit true
  | .real t => t.structure'
  | .cpx t => t.structure'

/-- An initialised `NQS`: `realParams`, `paramShapes`, `netTreeDef`, whether `parameters` is a `FrozenDict` (a plain
dictionary from flax 0.7 on, which setup.py asks for), and `parameters["params"]`. Simplification: the other collections of
variables are left out, nothing changes them. (vqs.py:187-218) -/
structure DictNqs where
  realParams : Bool
  sizes : List ℕ
  treeDef : PyTree Unit true
  frozen : Bool
  params : PTree

/-- Result of a call and the object after it; `none`: not initialised. (vqs.py:187-487) -/
abbrev DictCall (A : Type) := Except PyErr A × Option DictNqs

/-- vqs.py:187-218 `init_net`; `p₀` is what `net.init` returns, a `FrozenDict` if `frozen`. -/
def dictInit (frozen : Bool) (p₀ : PTree) : Option DictNqs → DictCall Unit
  | none => (.ok (), some ⟨p₀.toParams.isReal, p₀.toParams.sizes, p₀.treeDef, frozen, p₀⟩)
  | some s => (.ok (), some s)

/-- What `set_parameters` may be given: a `FrozenDict`, a plain dictionary, or a vector. Simplification: dictionaries have
entries of the number type of the network. (vqs.py:409-425) -/
inductive DictArg where
  | frozen (t : PTree)
  | plain (t : PTree)
  | vec (v : List ℝ)

/-- vqs.py:430-444 `_param_unflatten` of a vector. -/
noncomputable def dictUnflatten (s : DictNqs) (v : List ℝ) : Except PyErr PTree := do
  match ← paramUnflatten s.realParams s.sizes v with
  | .real l => return .real (← PyTree.unflatten s.treeDef l)
  | .cpx l => return .cpx (← PyTree.unflatten s.treeDef l)

/-- vqs.py:480-487, the setter of `params`: both kinds of dictionaries are accepted, `parameters` keeps its kind. -/
def dictSetter (t : PTree) : Option DictNqs → DictCall Unit
  | none => (.error .typeError, none)
  | some s => (.ok (), some { s with params := t })

/-- vqs.py:409-425 `set_parameters`: what is not a `FrozenDict` is sliced, `P[start:...]`; a dictionary raises a TypeError
there, since a slice is not hashable (a KeyError from Python 3.12 on). -/
noncomputable def dictSetP (P : DictArg) (st : Option DictNqs) : DictCall Unit :=
  match st with
  | none => (.error .runtimeError, none)
  | some s =>
    match P with
    | .frozen t => dictSetter t (some s)
    | .plain _ => (.error .typeError, some s)
    | .vec v =>
      match dictUnflatten s v with
      | .error e => (.error e, some s)
      | .ok t => dictSetter t (some s)

open Classical in
/-- `tree_map(jax.lax.add, p, q)`: the structures have to agree; the result has the sorted structure.
(vqs.py:398-401) -/
noncomputable def dictAdd (p q : PTree) : Except PyErr PTree :=
  if p.treeDef = q.treeDef then do
    match ← addParams p.toParams q.toParams with
    | .real l => return .real (← PyTree.unflatten p.treeDef l)
    | .cpx l => return .cpx (← PyTree.unflatten p.treeDef l)
  else .error .valueError

/-- vqs.py:384-404 `update_parameters` with a vector. -/
noncomputable def dictUpdate (v : List ℝ) (st : Option DictNqs) : DictCall Unit :=
  match st with
  | none => dictSetP (.vec v) none
  | some s =>
    match dictUnflatten s v with
    | .error e => (.error e, some s)
    | .ok d =>
      match dictAdd s.params d with
      | .error e => (.error e, some s)
      | .ok t => dictSetter t (some s)

/-- vqs.py:449-466 `get_parameters`: `jnp.concatenate` of an empty list is a ValueError. -/
def dictGetP (st : Option DictNqs) : DictCall (Option (List ℝ)) :=
  match st with
  | none => (.ok none, none)
  | some s =>
    if s.params.toParams.sizes = [] then (.error .valueError, some s)
    else (.ok (some (flattenParams s.params.toParams)), some s)

/-- vqs.py:474-478, property `params`, as an argument of `set_parameters`. -/
def dictParams (st : Option DictNqs) : Option DictArg :=
  match st with
  | none => none
  | some s => some (if s.frozen then .frozen s.params else .plain s.params)

end JVMC
