import Verif.Model.SearchFile
import Verif.Spec.OutputManager

/-!
# The record of a ground state search
-/

namespace JVMC.Spec

/-- The three numbers reported for an operator, with the names they have in the file. -/
def reported : List (String × (MeasResult → ℝ)) :=
  [("mean", MeasResult.mean), ("variance", MeasResult.variance), ("MC_error", MeasResult.mcError)]

/-- `xs` holds, for every operator of an entry, the number `f` as rank 0 (the first rank) has it. -/
def OnRank0 (f : MeasResult → ℝ) (vals : List (List MeasResult)) (xs : List ℝ) : Prop :=
  List.Forall₂ (fun v x => ∃ m rest, v = m :: rest ∧ f m = x) vals xs

/-- A dictionary of results has the given names, each with a certain number of operators. -/
def HasForm (form : List (String × ℕ)) (obs : ObsDict) : Prop :=
  obs.map (fun e => (e.1, e.2.length)) = form

/-- Names that a dictionary of observables can have: different, not empty, and not one of three words. -/
structure GoodNames (names : List String) : Prop where
  nodup : names.Nodup
  nonempty : "" ∉ names
  times : "times" ∉ names
  time : "time" ∉ names
  self : "self" ∉ names

end JVMC.Spec
