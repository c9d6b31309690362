import Verif.Model.MeasureAll

/-!
# Model of the Hamiltonians of the example scripts

The loops which build the Hamiltonian in `examples/ex0_ground_state_search.py:55-59`,
`examples/ex2_unitary_time_evolution.py:28-34` and `examples/ex4_benchmarking.py:27-31`, and the observable of
`examples/ex2_unitary_time_evolution.py:39-42`, in terms of the methods of `BranchFreeOperator` (Model/BranchFree,
Model/Operator). `Arg` is the type of the further arguments of `get_O_loc` (TDVP passes the time).
-/

namespace JVMC

variable {Arg : Type} (L : ℕ) [NeZero L]

/-- `hamiltonian.add(scal_opstr(a, (op, ...)))`. (ex0_ground_state_search.py:58-59) -/
noncomputable def addScaled (st : OpState (OpStr Arg L 2)) (a : ℂ) (ops : List (LocalOp L 2)) :
    Except PyErr (OpState (OpStr Arg L 2)) := do
  let str ← scalOpstr (.const a) (ops.map StrItem.op)
  return st.add str

/-- One pass of the loop, with the site `l` and its neighbour `(l + 1) % L`; `h` is `none` in the scripts without the
last line. (ex0_ground_state_search.py:58-59, ex4_benchmarking.py:30-31, ex2_unitary_time_evolution.py:32-34) -/
noncomputable def isingPass (g : ℂ) (h : Option ℂ) (st : OpState (OpStr Arg L 2)) (l : ℕ) :
    Except PyErr (OpState (OpStr Arg L 2)) := do
  let st ← addScaled L st (-1) [opSz (Fin.ofNat L l), opSz (Fin.ofNat L ((l + 1) % L))]
  let st ← addScaled L st g [opSx (Fin.ofNat L l)]
  match h with
  | none => return st
  | some h => addScaled L st h [opSz (Fin.ofNat L l)]

/-- The operator `hamiltonian`. (ex0_ground_state_search.py:56-59, ex2_unitary_time_evolution.py:30-34,
ex4_benchmarking.py:28-31) -/
noncomputable def isingOperator (g : ℂ) (h : Option ℂ) : Except PyErr (OpState (OpStr Arg L 2)) :=
  (List.range L).foldlM (isingPass L g h) OpState.new

/-- One pass of the loop for the observable. (ex2_unitary_time_evolution.py:42) -/
noncomputable def magnetPass (st : OpState (OpStr Arg L 2)) (l : ℕ) : Except PyErr (OpState (OpStr Arg L 2)) :=
  addScaled L st (1 / (L : ℂ)) [opSx (Fin.ofNat L l)]

/-- The operator `observables["X"]`. (ex2_unitary_time_evolution.py:39-42) -/
noncomputable def magnetOperator : Except PyErr (OpState (OpStr Arg L 2)) :=
  (List.range L).foldlM (magnetPass L) OpState.new

end JVMC
