import Verif.Model.PovmOperator
import Mathlib.Data.Real.Basic
import Mathlib.Data.Fin.Basic

/-!
# Model of the Lindbladians of the example scripts

The loops in `examples/ex5_dissipative_Lindblad.py:40-47` (a chain) and `examples/ex6_dissipative_Lindblad_2D.py:42-51` (a
square lattice), in terms of `POVMOperator.add` (Model/PovmOperator). The operator has the number 0.
-/

namespace JVMC

variable {N : ℕ}

/-- `Lindbladian.add({"name": ..., "strength": ..., "sites": ...})`: a new dictionary, which is added to the operator.
(ex5_dissipative_Lindblad.py:45-47, ex6_dissipative_Lindblad_2D.py:48-51) -/
def addTerm (w : PovmOps N ℝ) (name : String) (strength : ℝ) (sites : List (Fin N)) : PovmOps N ℝ :=
  ({ heap := w.heap ++ [{ name := name, strength := strength, sites := sites }], ops := w.ops } : PovmOps N ℝ).add 0
    w.heap.length

/-- ex5_dissipative_Lindblad.py:45-47: one pass of the loop. -/
def chainPass (L : ℕ) [NeZero L] (w : PovmOps L ℝ) (l : ℕ) : PovmOps L ℝ :=
  let w := addTerm w "ZZ" 1 [Fin.ofNat L l, Fin.ofNat L ((l + 1) % L)]
  let w := addTerm w "X" 3 [Fin.ofNat L l]
  addTerm w "dephasing" 1 [Fin.ofNat L l]

/-- ex5_dissipative_Lindblad.py:43-47. -/
def chainLindbladian (L : ℕ) [NeZero L] : PovmOps L ℝ :=
  (List.range L).foldl (chainPass L) (PovmOps.fresh [])

/-- ex6_dissipative_Lindblad_2D.py:23-24 `xy_to_id`. -/
def xyToId (x y L : ℕ) : ℕ := x + L * y

/-- ex6_dissipative_Lindblad_2D.py:48-51: one pass of the inner loop. -/
def squarePass (L : ℕ) [NeZero L] (x : ℕ) (w : PovmOps (L * L) ℝ) (y : ℕ) : PovmOps (L * L) ℝ :=
  let w := addTerm w "ZZ" 1 [Fin.ofNat (L * L) (xyToId x y L), Fin.ofNat (L * L) (xyToId ((x + 1) % L) y L)]
  let w := addTerm w "ZZ" 1 [Fin.ofNat (L * L) (xyToId x y L), Fin.ofNat (L * L) (xyToId x ((y + 1) % L) L)]
  let w := addTerm w "X" 3 [Fin.ofNat (L * L) (xyToId x y L)]
  addTerm w "dephasing" 0.5 [Fin.ofNat (L * L) (xyToId x y L)]

/-- ex6_dissipative_Lindblad_2D.py:45-51. -/
def squareLindbladian (L : ℕ) [NeZero L] : PovmOps (L * L) ℝ :=
  (List.range L).foldl (fun w x => (List.range L).foldl (squarePass L x) w) (PovmOps.fresh [])

end JVMC
