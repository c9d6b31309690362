import Mathlib.Analysis.SpecialFunctions.Complex.Log
import Verif.Model.BranchFree

/-!
# Model of examples/ex7_fermions.ipynb

The operator strings of the Hubbard model and the network `Target`. Line numbers are those of the file.
-/

namespace JVMC

/-- The strings added for site `i` (ex7_fermions.ipynb:131-144), with their prefactors; `site1UP = 0`,
`site1DO = 2 L - 1`. -/
noncomputable def hubbardSite (L : ℕ) (t mu V : ℂ) (i : Fin L) : List (ℂ × List (LocalOp (2 * L) 2)) :=
  let up : Fin (2 * L) := ⟨0 + i, by omega⟩
  let down : Fin (2 * L) := ⟨2 * L - 1 - i, by omega⟩
  [(V, [opNumber up, opNumber down]), (mu, [opNumber up]), (mu, [opNumber down])] ++
    if h : (i : ℕ) = L - 1 then [] else
      let up' : Fin (2 * L) := ⟨0 + i + 1, by omega⟩
      let down' : Fin (2 * L) := ⟨2 * L - 1 - i - 1, by omega⟩
      [(t, [opCreation up', opAnnihilation up]), (t, [opCreation up, opAnnihilation up']),
        (t, [opCreation down', opAnnihilation down]), (t, [opCreation down, opAnnihilation down'])]

/-- All strings of the Hamiltonian; `op.scal_opstr` attaches the prefactors.
(ex7_fermions.ipynb:126-144) -/
noncomputable def hubbardStrings (L : ℕ) (t mu V : ℂ) : Except PyErr (List (OpStr ℂ (2 * L) 2)) :=
  ((List.finRange L).flatMap (hubbardSite L t mu V)).mapM fun p => scalOpstr (.const p.1) (p.2.map .op)

/-- `idx = ((self.d**jnp.arange(self.L)).dot(s[::-1])).astype(int)` for `d = 2`. (ex7_fermions.ipynb:78) -/
def targetIndex {L : ℕ} (s : Config L 2) : ℕ := ∑ k : Fin L, 2 ^ (k : ℕ) * (s k.rev : ℕ)

/-- `Target.__call__` with real parameters `kernel` and `delta = 1e-15`; `log(0)` is not covered. An index beyond the
end would be clamped, but there is none: `kernel` has `d**L` entries.
(ex7_fermions.ipynb:59-79) -/
noncomputable def target {L : ℕ} (kernel : ℕ → ℝ) (s : Config L 2) : ℂ :=
  (Real.log |kernel (targetIndex s) + 1e-15| : ℝ) + Complex.I * (Complex.arg (kernel (targetIndex s) : ℂ) : ℝ)

end JVMC
