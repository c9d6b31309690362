import Mathlib.Data.List.Basic
import Verif.Model.Py
import Verif.Model.SymNet

/-!
# Model of how networks are put together: `TwoNets`, the constructor of `NQS`, `util.init_net`

`jVMC/nets/two_nets_wrapper.py`, `jVMC/vqs.py:154-172, 337-352` and `jVMC/util/util.py:26-88`. Networks are
functions of the (flattened) configuration, for fixed parameters.
-/

namespace JVMC

/-! ## Two networks and the constructor of `NQS` -/

/-- A network as its users see it: `__call__` (which may raise), and `eval_real` and `sample` if `dir(net)` has them.
Logarithms are finite. (two_nets_wrapper.py:8-35, vqs.py:163-172) -/
structure FlaxNet (n : ℕ) (K : Type) where
  call : (Fin n → ℤ) → Except PyErr ℂ
  evalReal : Option ((Fin n → ℤ) → Except PyErr ℂ)
  sample : Option (ℕ → K → List (Fin n → ℤ))

/-- Python's `l[i]` for a tuple. (two_nets_wrapper.py:13-35) -/
def tupleItem {A : Type} (l : List A) (i : ℕ) : Except PyErr A :=
  match l[i]? with
  | some a => .ok a
  | none => .error .indexError

/-- two_nets_wrapper.py:8-35 `TwoNets(nets)`. -/
noncomputable def twoNets {n : ℕ} {K : Type} (nets : List (FlaxNet n K)) : Except PyErr (FlaxNet n K) := do
  let first ← tupleItem nets 0
  return {
    call := fun s => do
      let a ← first.call s
      let second ← tupleItem nets 1
      let b ← second.call s
      return a + Complex.I * b
    evalReal := some fun s => first.call s
    sample := first.sample }

/-- sym_wrapper.py:37-66 `SymNet(orbit, net, avgFun)`: there is no `eval_real`, `sample` is passed on. -/
def symNetModule {n : ℕ} {K : Type} (orbit : LatticeSymmetry n) (net : FlaxNet n K)
    (avgFun : List ℂ → List ℂ → ℂ) : FlaxNet n K where
  call := fun s => do
    let res ← (symImages orbit.orbit s).mapM net.call
    return avgFun res orbit.factor
  evalReal := none
  sample := net.sample

/-- The argument `net` of `NQS`. (vqs.py:165) -/
inductive NetArg (n : ℕ) (K : Type) where
  | single (net : FlaxNet n K)
  | iterable (nets : List (FlaxNet n K))

/-- vqs.py:165-171, the network of `NQS(net, orbit=…, avgFun=…)`. -/
noncomputable def nqsNet {n : ℕ} {K : Type} (arg : NetArg n K) (orbit : Option (LatticeSymmetry n))
    (avgFun : List ℂ → List ℂ → ℂ) : Except PyErr (FlaxNet n K) := do
  let net ← match arg with
    | .single net => Except.ok net
    | .iterable nets => twoNets nets
  match orbit with
  | none => return net
  | some o => return symNetModule o net avgFun

/-- vqs.py:164-171: `_isGenerator`. -/
def isGenerator {n : ℕ} {K : Type} (net : FlaxNet n K) : Bool := net.sample.isSome

/-- vqs.py:337-352 `get_sampler_net`: the function whose values the sampler uses as logarithmic amplitudes. -/
def samplerNet {n : ℕ} {K : Type} (net : FlaxNet n K) (s : Fin n → ℤ) : Except PyErr ℝ := do
  let z ← (net.evalReal.getD net.call) s
  return z.re

/-! ## `util.init_net` -/

/-- The value of `"actFun"`: one or several names, or what `init_net` has replaced them by.
(util.py:28-33, 49-50, 73-75) -/
inductive ActFun where
  | name (fn : String)
  | names (fns : List String)
  | function (fn : String)
  | functions (fns : List String)

/-- activation_functions.py:25-32, the keys. -/
def activationNames : List String := ["square", "poly5", "poly6", "elu", "relu", "tanh"]

/-- util.py:28-33 `get_activation_functions`. A function or a tuple of functions is not a key of the
dictionary. -/
def getActivationFunctions : ActFun → Except PyErr ActFun
  | .names fns => if ∀ f ∈ fns, f ∈ activationNames then .ok (.functions fns) else .error .keyError
  | .name fn => if fn ∈ activationNames then .ok (.function fn) else .error .keyError
  | .function _ => .error .keyError
  | .functions _ => .error .keyError

/-- util.py:35-43, the keys of `netTypes`. -/
def netTypeNames : List String := ["RBM", "FFN", "CNN", "RNN", "RNN2D", "CpxRBM", "CpxCNN"]

/-- `descr["net1"]`: the type, `parameters["actFun"]` if present, and the other parameters. (util.py:45-50) -/
structure NetDescr (P : Type) where
  type : String
  actFun : Option ActFun
  params : P

/-- A symmetry factor as given: real or complex. (util.py:56-59) -/
inductive SymFactor where
  | real (x : ℝ)
  | cpx (z : ℂ)

/-- The number. (util.py:56-59) -/
noncomputable def SymFactor.val : SymFactor → ℂ
  | .real x => x
  | .cpx z => z

/-- A factor of complex type. (util.py:56-59) -/
def SymFactor.isCpx : SymFactor → Bool
  | .real _ => false
  | .cpx _ => true

/-- A symmetry in the description: is the key there, and `…_factor`, if given. The value at the key does not
matter. (util.py:52-59) -/
structure SymDescr where
  present : Bool
  factor : Option SymFactor

/-- util.py:58-59: the factor, one by default. -/
noncomputable def SymDescr.fac (d : SymDescr) : SymFactor := d.factor.getD (.real 1)

/-- The dictionary `descr`. (util.py:26-88) -/
structure Descr (P : Type) where
  net1 : NetDescr P
  net2 : Option (NetDescr P)
  translation : SymDescr
  rotation : SymDescr
  reflection : SymDescr
  spinflip : SymDescr
  batchSize : Option ℕ

/-- What a network returns. (util.py:65-82) -/
inductive NetFun (n : ℕ) where
  | real (f : (Fin n → ℤ) → ℝ)
  | cpx (f : (Fin n → ℤ) → ℂ)

/-- What the wave function returns. (util.py:82-83) -/
inductive PsiVal where
  | real (x : RealLog)
  | cpx (z : LogVal)

/-- The types with a method `sample`. (util.py:68) -/
def generatorType (type : String) : Bool := type = "RNN" || type = "RNN2D"

/-- util.py:81-83: the symmetrised network. Real networks with complex factors are promoted to complex numbers. -/
noncomputable def symmetrise {n : ℕ} (generator cpxFactor : Bool) (net : NetFun n) (orbit : LatticeSymmetry n)
    (s : Fin n → ℤ) : PsiVal :=
  match net with
  | .real f =>
    if generator then .cpx (some (symNet avgSep (fun x => (f x : ℂ)) orbit.orbit orbit.factor s))
    else if cpxFactor then .cpx (symNet avgExp (fun x => (f x : ℂ)) orbit.orbit orbit.factor s)
    else .real (symNet avgExpReal f orbit.orbit (orbit.factor.map Complex.re) s)
  | .cpx f =>
    if generator then .cpx (some (symNet avgSep f orbit.orbit orbit.factor s))
    else .cpx (symNet avgExp f orbit.orbit orbit.factor s)

/-- util.py:61-64: the orbit. `get_orbit_1D` has no argument `rotation_factor`; other numbers of dimensions leave
the variable unbound. -/
noncomputable def initOrbit {P : Type} (d : Descr P) (dims : List ℕ) : Except PyErr ((n : ℕ) × LatticeSymmetry n) :=
  match dims with
  | [L] =>
    if d.rotation.present then .error .typeError
    else .ok ⟨L, getOrbit1D L d.translation.present d.reflection.present d.spinflip.present
      d.translation.fac.val d.reflection.fac.val d.spinflip.fac.val⟩
  | [L, _] => .ok ⟨L * L, getOrbit2D L d.translation.present d.reflection.present d.rotation.present
      d.spinflip.present d.translation.fac.val d.reflection.fac.val d.rotation.fac.val d.spinflip.fac.val⟩
  | _ => .error .unboundLocalError

/-- util.py:45-47 `get_net`: unknown types raise `KeyError`; `mk` are the constructors, which may raise. -/
def getNet {P : Type} (mk : NetDescr P → (n : ℕ) → Except PyErr (NetFun n)) (d : NetDescr P) (n : ℕ) :
    Except PyErr (NetFun n) :=
  if d.type ∈ netTypeNames then mk d n else .error .keyError

/-- Some enabled symmetry has a factor of complex type. (util.py:56-64) -/
noncomputable def Descr.cpxFactor {P : Type} (d : Descr P) : Bool :=
  [d.translation, d.reflection, d.rotation, d.spinflip].any fun x => x.present && x.fac.isCpx

/-- util.py:49-50, 73-75: `d["parameters"]["actFun"] = get_activation_functions(…)`, if the key is there. -/
def resolveAct {P : Type} (d : NetDescr P) : Except PyErr (NetDescr P) :=
  match d.actFun with
  | none => .ok d
  | some a =>
    match getActivationFunctions a with
    | .error e => .error e
    | .ok f => .ok ⟨d.type, some f, d.params⟩

/-- util.py:66-69, 81-88 with one network. A network on a lattice with different edges is applied to the wrong
number of sites. -/
noncomputable def buildOne {P : Type} (mk : NetDescr P → (n : ℕ) → Except PyErr (NetFun n)) (d : Descr P)
    (dims : List ℕ) (orbit : (n : ℕ) × LatticeSymmetry n) : Except PyErr ((n : ℕ) × ((Fin n → ℤ) → PsiVal)) :=
  match getNet mk d.net1 orbit.1 with
  | .error e => .error e
  | .ok net =>
    match d.batchSize with
    | none => .error .keyError
    | some _ =>
      if dims.prod = orbit.1 then
        .ok ⟨orbit.1, symmetrise (generatorType d.net1.type) d.cpxFactor net orbit.2⟩
      else .error .typeError

/-- util.py:77-79 with two networks: `TwoNets(net1=…, net2=…)` raises, the only field of `TwoNets` is `nets`. -/
def buildTwo {P : Type} (mk : NetDescr P → (n : ℕ) → Except PyErr (NetFun n)) (net1 net2 : NetDescr P) (n : ℕ) :
    Except PyErr ((n : ℕ) × ((Fin n → ℤ) → PsiVal)) := do
  let _ ← getNet mk net1 n
  let _ ← getNet mk net2 n
  .error .typeError

/-- util.py:26-88 `init_net(descr, dims)`: the wave function or the exception, and the dictionary afterwards. -/
noncomputable def initNetUtil {P : Type} (mk : NetDescr P → (n : ℕ) → Except PyErr (NetFun n)) (d : Descr P)
    (dims : List ℕ) : Except PyErr ((n : ℕ) × ((Fin n → ℤ) → PsiVal)) × Descr P :=
  match resolveAct d.net1 with
  | .error e => (.error e, d)
  | .ok net1 =>
    let d1 : Descr P := { d with net1 := net1 }
    match initOrbit d1 dims with
    | .error e => (.error e, d1)
    | .ok orbit =>
      match d1.net2 with
      | none => (buildOne mk d1 dims orbit, d1)
      | some net2 =>
        match resolveAct net2 with
        | .error e => (.error e, d1)
        | .ok net2 => (buildTwo mk net1 net2 orbit.1, { d1 with net2 := some net2 })

end JVMC
