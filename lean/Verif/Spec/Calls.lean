import Mathlib.Data.Real.Basic

/-!
# Calls with keyword arguments

Which calls Python accepts, and what `step` should make of its keyword arguments.
-/

namespace JVMC.Spec

/-- A call with `args` by position and `kw` by name fits a function with the parameters `pos`, `kwOnly` (each with: has
it a default value), and a `**kwargs` if `varKw`: not too many positional arguments, no unknown names, no second value,
nothing missing. -/
structure CallFits {V : Type} (pos kwOnly : List (String × Bool)) (varKw : Bool) (args : List V)
    (kw : List (String × V)) : Prop where
  few : args.length ≤ pos.length
  known : ∀ k v, (k, v) ∈ kw → varKw = true ∨ ∃ d, (k, d) ∈ pos ++ kwOnly
  once : ∀ k v, (k, v) ∈ kw → ∀ i < args.length, pos[i]?.map Prod.fst ≠ some k
  complete : ∀ k, (k, false) ∈ pos ++ kwOnly → (∃ v, (k, v) ∈ kw) ∨ ∃ i < args.length, pos[i]?.map Prod.fst = some k

/-- No name is given twice. -/
def OnceEach {V : Type} (kw : List (String × V)) : Prop := (kw.map Prod.fst).Nodup

/-- The value given for `k` is `v`, or none is given and it is the default. -/
def Value {V : Type} (kw : List (String × V)) (k : String) (default v : V) : Prop :=
  (k, v) ∈ kw ∨ (∀ w, (k, w) ∉ kw) ∧ v = default

/-- The parameters of the constructors, in the order of the documentation: class, those that must be given, those that
may be given. -/
def documented : List (String × List String × List String) :=
  [("TDVP", ["sampler"], ["snrTol", "pinvTol", "pinvCutoff", "makeReal", "rhsPrefactor", "diagonalShift",
     "crossValidation", "diagonalizeOnDevice"]),
   ("MinSR", ["sampler"], ["pinvTol", "makeReal", "diagonalizeOnDevice"]),
   ("Euler and Heun", [], ["timeStep"]),
   ("AdaptiveHeun", [], ["timeStep", "tol", "maxStep"]),
   ("NQS", ["net"], ["logarithmic", "batchSize", "seed", "orbit", "avgFun"]),
   ("MCSampler", ["net", "sampleShape", "key"], ["updateProposer", "numChains", "updateProposerArg", "numSamples",
     "thermalizationSweeps", "sweepSteps", "initState", "mu", "logProbFactor"]),
   ("ExactSampler", ["net", "sampleShape"], ["lDim", "logProbFactor"]),
   ("LatticeSymmetry", ["orbit", "factor"], []),
   ("OutputManager", ["dataFileName"], ["group", "append"]),
   ("SampledObs", [], ["observations", "weights", "estimator", "params"]),
   ("POVM", ["system_data"], ["theta", "phi", "name"]),
   ("Operator", [], ["ElocBatchSize"])]

end JVMC.Spec
