import Mathlib.Data.Complex.Basic
import Mathlib.Algebra.BigOperators.Ring.Finset
import Mathlib.LinearAlgebra.Matrix.ConjTranspose
import Mathlib.LinearAlgebra.Matrix.Trace
import Mathlib.LinearAlgebra.Matrix.PosDef
import Mathlib.Analysis.Complex.Order
import Mathlib.Data.Fin.VecNotation

/-!
# Measurements and density-matrix dynamics

Textbook definitions, independent of the code.
-/

namespace JVMC.Spec

open Matrix
open scoped ComplexOrder

variable {ι n : Type} [Fintype ι] [Fintype n] [DecidableEq n]

/-- A positive operator valued measure: positive matrices that sum to the identity. -/
def IsPovm (M : ι → Matrix n n ℂ) : Prop := (∀ a, (M a).PosSemidef) ∧ ∑ a, M a = 1

/-- The Born rule: probability of outcome `a` in state `ρ`. -/
def outcomeProb (M : ι → Matrix n n ℂ) (ρ : Matrix n n ℂ) (a : ι) : ℂ := (ρ * M a).trace

/-- The outcome probabilities determine the state. -/
def InfComplete (M : ι → Matrix n n ℂ) : Prop :=
  ∀ ρ ρ' : Matrix n n ℂ, outcomeProb M ρ = outcomeProb M ρ' → ρ = ρ'

/-- `-i [H, ρ]`, the generator of the von Neumann equation. -/
def vonNeumann (H ρ : Matrix n n ℂ) : Matrix n n ℂ := (-Complex.I) • (H * ρ - ρ * H)

/-- `L ρ L† - ½ {L† L, ρ}`, the dissipator of the Lindblad equation. -/
noncomputable def lindblad (L ρ : Matrix n n ℂ) : Matrix n n ℂ :=
  L * ρ * Lᴴ - (1 / 2 : ℂ) • (Lᴴ * L * ρ + ρ * (Lᴴ * L))

/-- `-{H, ρ}`, the generator of imaginary time evolution. -/
def imaginaryTime (H ρ : Matrix n n ℂ) : Matrix n n ℂ := -(H * ρ + ρ * H)

/-- Tensor product of one matrix per site: `⊗_k A_k`, on configurations of spins. -/
def siteMat {V : Type} [Fintype V] (A : V → Matrix n n ℂ) : Matrix (V → n) (V → n) ℂ :=
  Matrix.of fun s t => ∏ k, A k (s k) (t k)

/-- `A` acting on site `i`, identity elsewhere. -/
def oneSite {V : Type} [Fintype V] [DecidableEq V] (A : Matrix n n ℂ) (i : V) :
    Matrix (V → n) (V → n) ℂ :=
  siteMat fun k => if k = i then A else 1

/-- The measurement that performs `M` independently on every site. -/
def productPovm {V : Type} [Fintype V] (M : ι → Matrix n n ℂ) :
    (V → ι) → Matrix (V → n) (V → n) ℂ :=
  fun a => siteMat fun k => M (a k)

/-- The matrices the named operators stand for, in the basis (up, down). -/
def namedMatrix : List (String × Matrix (Fin 2) (Fin 2) ℂ) :=
  [("X", !![0, 1; 1, 0]), ("Y", !![0, -Complex.I; Complex.I, 0]), ("Z", !![1, 0; 0, -1]),
   ("decayup", !![0, 1; 0, 0]), ("decaydown", !![0, 0; 1, 0]), ("dephasing", !![1, 0; 0, -1])]

/-- The product of two one-site matrices on two sites. -/
def onTwoSites (A B : Matrix (Fin 2) (Fin 2) ℂ) : Matrix (Fin 2 × Fin 2) (Fin 2 × Fin 2) ℂ :=
  Matrix.of fun s t => A s.1 t.1 * B s.2 t.2

/-- The Bloch vector `(⟨σx⟩, ⟨σy⟩, ⟨σz⟩)` a named state should have. -/
def blochOf : List (String × (Fin 3 → ℝ)) :=
  [("x_up", ![1, 0, 0]), ("x_down", ![-1, 0, 0]), ("y_up", ![0, 1, 0]), ("y_down", ![0, -1, 0]),
   ("z_up", ![0, 0, 1]), ("z_down", ![0, 0, -1])]

end JVMC.Spec
