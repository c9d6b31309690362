import Verif.Model.Vqs

/-!
# Model of `NQS` with the data types of the parameters

`Model.Vqs` has networks with real or with complex parameters only. Here every array of the tree carries its data
type, and the attributes of the object are separate, as in the code: `init_net` assigns some of them before it raises.
Rounding is not modelled; all numbers are exact.
-/

namespace JVMC

/-- Data types of parameter arrays (vqs.py:192-197). -/
inductive DType where
  | i32
  | f16
  | bf16
  | f32
  | f64
  | c64
  | c128
  deriving DecidableEq

/-- One array of a tree of parameters: data type and entries in the order of `ravel`. (vqs.py:190-197) -/
structure TLeaf where
  dtype : DType
  vals : List ℂ

/-- `self.parameters`: the arrays under `"params"` and those of all other collections. (vqs.py:190) -/
structure Variables where
  params : List TLeaf
  other : List TLeaf

/-- `tree_flatten(self.parameters)[0]` (vqs.py:192). The order of the collections does not matter here. -/
def Variables.leaves (v : Variables) : List TLeaf := v.params ++ v.other

/-- The exceptions of `NQS`: those of `Model.Vqs`, and the `Exception` of vqs.py:195 about data types. -/
inductive NqsErr where
  | py (e : PyErr)
  | dataTypes
  deriving DecidableEq

/-- The attributes of an `NQS` which `init_net` and the methods for parameters use (vqs.py:156-158, 187-218);
`none` for `None` or for an attribute which is not assigned yet. -/
structure NqsObj where
  parameters : Option Variables
  realParams : Option Bool
  sizes : Option (List ℕ)
  initialized : Bool

/-- A new object. (vqs.py:149-158) -/
def NqsObj.fresh : NqsObj := ⟨none, none, none, false⟩

/-- The outcome of a call and the object afterwards. (vqs.py:187-487) -/
abbrev ObjCall (A : Type) := Except NqsErr A × NqsObj

/-- vqs.py:187-218 `init_net`, `v₀` being what `net.init` returns (it is determined by the seed and the shape of the
configuration). The assignments in lines 190-191 come before the test of the data types. A tree without arrays is an
`IndexError` in line 196. `jax.grad` (lines 202-203) rejects integers; the gradient has no entry `"params"` if there are
only other collections. The choice of the gradient function is in `Model.Vqs`. -/
def initObj (v₀ : Variables) (st : NqsObj) : ObjCall Unit :=
  if st.initialized then (.ok (), st)
  else
    let st := { st with parameters := some v₀, realParams := some false }
    match v₀.leaves.map TLeaf.dtype with
    | [] => (.error (.py .indexError), st)
    | d :: ds =>
      if !((d :: ds).all fun x => x == d) then (.error .dataTypes, st)
      else
        let st := if d == .f32 || d == .f64 then { st with realParams := some true } else st
        if d == .i32 then (.error (.py .typeError), st)
        else if v₀.params.isEmpty then (.error (.py .keyError), st)
        else (.ok (), { st with sizes := some (v₀.params.map fun l => l.vals.length), initialized := true })

/-- vqs.py:223-239 `__call__`, and `gradients` (vqs.py:271-287): initialise, then use the current parameters. -/
def evalObj {B : Type} (v₀ : Variables) (f : Variables → Except PyErr B) (st : NqsObj) : ObjCall B :=
  match initObj v₀ st with
  | (.error e, st) => (.error e, st)
  | (.ok (), st) =>
    match st.parameters with
    | none => (.error (.py .typeError), st)
    | some v =>
      match f v with
      | .error e => (.error (.py e), st)
      | .ok b => (.ok b, st)

/-- vqs.py:449-466 `get_parameters`; `none` is Python's `None`. -/
noncomputable def getParametersObj (st : NqsObj) : ObjCall (Option (List ℂ)) :=
  if !st.initialized then (.ok none, st)
  else
    match st.parameters with
    | none => (.error (.py .typeError), st)
    | some v =>
      if st.realParams = some false then
        (.ok (some (v.params.flatMap fun l =>
          (l.vals.map fun z => (z.re : ℂ)) ++ l.vals.map fun z => (z.im : ℂ))), st)
      else (.ok (some (v.params.flatMap TLeaf.vals)), st)

/-- vqs.py:472-478, property `params`. -/
def paramsObj (st : NqsObj) : ObjCall (Option (List TLeaf)) :=
  if st.initialized then
    match st.parameters with
    | none => (.error (.py .typeError), st)
    | some v => (.ok (some v.params), st)
  else (.ok none, st)

/-- vqs.py:480-487, setter of `params`. It does not look at `initialized`. -/
def setParamsObj (p : List TLeaf) (st : NqsObj) : ObjCall Unit :=
  match st.parameters with
  | none => (.error (.py .typeError), st)
  | some v => (.ok (), { st with parameters := some { v with params := p } })

/-- The data type of `x + 1.j * y` for arrays `x`, `y` of a real data type. (vqs.py:437) -/
def cpxOf : DType → DType
  | .f64 => .c128
  | .c128 => .c128
  | _ => .c64

/-- vqs.py:430-444 `_param_unflatten` of a vector of data type `dt`: the arrays get the data type of the vector, or the
complex one which belongs to it; the data type of the network's arrays plays no role. -/
noncomputable def unflattenObj (realParams : Bool) (sizes : List ℕ) (dt : DType) (P : List ℝ) :
    Except PyErr (List TLeaf) := do
  match ← paramUnflatten realParams sizes P with
  | .real l => return l.map fun x => ⟨dt, x.map fun r : ℝ => (r : ℂ)⟩
  | .cpx l => return l.map fun x => ⟨cpxOf dt, x⟩

/-- `jax.lax.add` of two arrays (vqs.py:399): equal shapes and equal data types, nothing is converted. -/
noncomputable def laxAdd (a b : TLeaf) : Except PyErr TLeaf :=
  if a.dtype = b.dtype ∧ a.vals.length = b.vals.length then .ok ⟨a.dtype, List.zipWith (· + ·) a.vals b.vals⟩
  else .error .typeError

/-- `tree_map(jax.lax.add, p, q)` (vqs.py:398-401). -/
noncomputable def addLeaves : List TLeaf → List TLeaf → Except PyErr (List TLeaf)
  | [], [] => .ok []
  | a :: p, b :: q => do
    let c ← laxAdd a b
    let r ← addLeaves p q
    return c :: r
  | _, _ => .error .valueError

/-- The argument of `set_parameters`: a `FrozenDict`, or a vector of real numbers with its data type. (vqs.py:409-425) -/
inductive TParamArg where
  | dict (p : List TLeaf)
  | vec (dt : DType) (v : List ℝ)

/-- vqs.py:409-425 `set_parameters`. -/
noncomputable def setParametersObj (P : TParamArg) (st : NqsObj) : ObjCall Unit :=
  if !st.initialized then (.error (.py .runtimeError), st)
  else
    match P with
    | .dict p => setParamsObj p st
    | .vec dt v =>
      match st.realParams, st.sizes with
      | some r, some sizes =>
        match unflattenObj r sizes dt v with
        | .error e => (.error (.py e), st)
        | .ok p => setParamsObj p st
      | _, _ => (.error (.py .attributeError), st)

/-- vqs.py:384-404 `update_parameters` with a vector of data type `dt`. -/
noncomputable def updateParametersObj (dt : DType) (d : List ℝ) (st : NqsObj) : ObjCall Unit :=
  if !st.initialized then setParametersObj (.vec dt d) st
  else
    match st.parameters, st.realParams, st.sizes with
    | some v, some r, some sizes =>
      match unflattenObj r sizes dt d with
      | .error e => (.error (.py e), st)
      | .ok q =>
        match addLeaves v.params q with
        | .error e => (.error (.py e), st)
        | .ok p => setParamsObj p st
    | _, _, _ => (.error (.py .attributeError), st)

/-- vqs.py:332-350 `get_sampler_net`, the parameters only. -/
def samplerNetObj (st : NqsObj) : ObjCall (Option Variables) := (.ok st.parameters, st)

/-- vqs.py:354-374 `sample` of a network which generates configurations, with its own parameters; `gen` is
`net.apply(…, method=net.sample)`. -/
def sampleObj {B : Type} (gen : Option Variables → Except PyErr B) (st : NqsObj) : ObjCall B :=
  match gen st.parameters with
  | .error e => (.error (.py e), st)
  | .ok b => (.ok b, st)

/-! ## The networks of the package -/

/-- The names of cells. (rnn1d_general.py:118-126, rnn2d_general.py:126-133) -/
inductive CellName where
  | rnn
  | lstm
  | gru
  deriving DecidableEq

/-- Networks of the package, as far as the data types of their arrays are concerned; layers are given by whether they
have a bias. `"GRU"` on square lattices cannot be evaluated at all (C90). (rbm.py, cnn.py, ffn.py, rnn1d_general.py,
rnn2d_general.py, two_nets_wrapper.py, sym_wrapper.py) -/
inductive NetArch where
  | cpxRbm (bias : Bool)
  | rbm (bias : Bool)
  | cnn (bias : Bool) (more : List Bool)
  | cpxCnn (bias : Bool) (more : List Bool)
  | ffn (bias : Bool) (more : List Bool)
  | rnn1D (realValuedParams : Bool) (cell : CellName) (depth : ℕ)
  | rnn2D (realValuedParams lstm : Bool) (depth : ℕ)
  | two (a b : NetArch)
  | sym (a : NetArch)

/-- The kernel and, if there is one, the bias of a layer. (initializers.py:10-24) -/
def layerTypes (d : DType) (bias : Bool) : List DType := if bias then [d, d] else [d]

/-- `self.dtype` of the recurrent networks. (rnn1d_general.py:110-115, rnn2d_general.py:113-118) -/
def rnnType (realValuedParams : Bool) : DType := if realValuedParams then .f64 else .c128

/-- The data types of the arrays of a cell on a chain. `init_fn_args` without data type leaves the choice to flax, which
takes double precision; so the gates are real in any case. (rnn1d_general.py:180-230) -/
def cellTypes1D (r : Bool) : CellName → List DType
  | .rnn => [rnnType r]
  | .lstm => List.replicate 12 .f64
  | .gru => List.replicate 10 .f64

/-- The data types of the arrays of a cell on a square lattice. (rnn2d_general.py:258-315) -/
def cellTypes2D (r lstm : Bool) : List DType :=
  if lstm then List.replicate 15 .f64 else [rnnType r, rnnType r]

/-- The data types of all parameter arrays. (rbm.py:32-35, 58-61, 82-85, cnn.py:64-76, 129-143, ffn.py:33-46,
rnn1d_general.py:45-47, 117-135, rnn2d_general.py:48-50, 125-145, two_nets_wrapper.py:20-22, sym_wrapper.py:20-40) -/
def NetArch.types : NetArch → List DType
  | .cpxRbm b => layerTypes .c128 b
  | .rbm b => layerTypes .f64 b
  | .cnn b bs => (b :: bs).flatMap (layerTypes .f64)
  | .cpxCnn b bs => (b :: bs).flatMap (layerTypes .c128)
  | .ffn b bs => (b :: bs).flatMap (layerTypes .f64)
  | .rnn1D r cell depth => rnnType r :: (List.replicate depth (cellTypes1D r cell)).flatten ++ [rnnType r, rnnType r]
  | .rnn2D r lstm depth => rnnType r :: (List.replicate depth (cellTypes2D r lstm)).flatten ++ [rnnType r, rnnType r]
  | .two a b => a.types ++ b.types
  | .sym a => a.types

end JVMC
