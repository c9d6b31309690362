import Verif.Model.MeasureAll
import Verif.Spec.Variational

/-!
# Dictionaries of observables

The documented form of the argument of `measure`, and what "the same operator, built anew" means.
-/

namespace JVMC.Spec

variable {S Term Op Arg : Type} [DecidableEq Op]

/-- An element of a list of observables asks for an operator, with or without arguments. -/
inductive Asks : ObsVal Op Arg → Op × List (ObsVal Op Arg) → Prop where
  | plain (o : Op) : Asks (.op o) (o, [])
  | withArgs (o : Op) (args : List (ObsVal Op Arg)) : Asks (.seq (.op o :: args)) (o, args)

/-- A value of the dictionary is an operator, or a list of operators with or without arguments. -/
inductive AsksAll : ObsVal Op Arg → List (Op × List (ObsVal Op Arg)) → Prop where
  | single (o : Op) : AsksAll (.op o) [(o, [])]
  | list {l : List (ObsVal Op Arg)} {reqs : List (Op × List (ObsVal Op Arg))} :
      List.Forall₂ Asks l reqs → AsksAll (.seq l) reqs

/-- The terms that a script has added to operator `o`, in order. -/
def addedTo (o : Op) : List (MeasAct S Term Op Arg) → List Term
  | [] => []
  | .add o' t :: acts => if o' = o then t :: addedTo o acts else addedTo o acts
  | .measure _ _ _ :: acts => addedTo o acts

/-- A new operator object to which these terms have been added; it was never evaluated. -/
def builtFrom (terms : List Term) : OpState Term := terms.foldl OpState.add OpState.new

/-- The estimate of `⟨O⟩` from weighted configurations: `∑ w(s) (O ψ)(s) / ψ(s)`. -/
noncomputable def estimate {C : Type} [Fintype C] (l : List (ℝ × C)) (O : Matrix C C ℂ) (ψ : C → ℂ) : ℂ :=
  (l.map fun x => (x.1 : ℂ) * ((Matrix.mulVec O ψ) x.2 / ψ x.2)).sum

end JVMC.Spec
