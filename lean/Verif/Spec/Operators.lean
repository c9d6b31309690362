import Mathlib.Data.Matrix.Basic
import Mathlib.LinearAlgebra.Matrix.Notation
import Mathlib.Data.Complex.Basic
import Mathlib.Data.Fintype.Pi
import Mathlib.Algebra.BigOperators.Group.Finset.Basic
import Mathlib.Data.Fintype.BigOperators

/-!
# Quantum operators on configurations

Matrices indexed by basis configurations `Fin N → Fin d`: the textbook definitions of a local
operator embedded into a many-body Hilbert space, with and without Jordan–Wigner string, and of
sums of products of such operators.
-/

namespace JVMC.Spec

open Matrix

variable {N d : ℕ}

/-- `1 ⊗ … ⊗ A ⊗ … ⊗ 1` with the one-site matrix `A` in position `i`:
`⟨s|…|s'⟩ = A[s_i, s'_i] ∏_{j ≠ i} δ(s_j, s'_j)`. -/
def siteOperator (i : Fin N) (A : Matrix (Fin d) (Fin d) ℂ) :
    Matrix (Fin N → Fin d) (Fin N → Fin d) ℂ :=
  fun s s' => A (s i) (s' i) * if ∀ j, j ≠ i → s j = s' j then 1 else 0

/-- The Jordan–Wigner string of site `i`: the diagonal matrix `∏_{j > i} (-1)^{n_j}`. -/
def jordanWigner (i : Fin N) : Matrix (Fin N → Fin d) (Fin N → Fin d) ℂ :=
  Matrix.diagonal fun s => ∏ j, if i < j then (-1 : ℂ) ^ (s j : ℕ) else 1

/-- `∑_k c_k · A_{k,1} A_{k,2} ⋯`: a sum of ordered products with prefactors. -/
def sumOfProducts (terms : List (ℂ × List (Matrix (Fin N → Fin d) (Fin N → Fin d) ℂ))) :
    Matrix (Fin N → Fin d) (Fin N → Fin d) ℂ :=
  (terms.map fun t => t.1 • t.2.prod).sum

/-- A matrix `A` acting on the local states of the listed sites and as identity on all others:
`⟨s|…|s'⟩ = A[(s_i)_{i ∈ sites}, (s'_i)_{i ∈ sites}] ∏_{j ∉ sites} δ(s_j, s'_j)`. -/
def onSites {R : Type} [Ring R] (sites : List (Fin N)) (A : List (Fin d) → List (Fin d) → R) :
    Matrix (Fin N → Fin d) (Fin N → Fin d) R :=
  Matrix.of fun s s' => A (sites.map s) (sites.map s') * if ∀ j, j ∉ sites → s j = s' j then 1 else 0

/-- What a list of (configuration, matrix element) pairs contributes to configuration `s'`. -/
def elementOf {C R : Type} [DecidableEq C] [AddCommMonoid R] (l : List (C × R)) (s' : C) : R :=
  ((l.filter fun e => decide (e.1 = s')).map Prod.snd).sum

/-- `∑_{s'} O_{s,s'} ψ(s')` for a list of (configuration, matrix element) pairs. -/
def applyTo {C : Type} (l : List (C × ℂ)) (ψ : C → ℂ) : ℂ := (l.map fun e => e.2 * ψ e.1).sum

/-- Pauli matrices in the basis `0 = ↓`, `1 = ↑`; entry `(a, b)` is `⟨a|σ|b⟩`. -/
def sigmaX : Matrix (Fin 2) (Fin 2) ℂ := !![0, 1; 1, 0]

/-- `σ^y|↓⟩ = -i|↑⟩`, `σ^y|↑⟩ = i|↓⟩`. -/
def sigmaY : Matrix (Fin 2) (Fin 2) ℂ := !![0, Complex.I; -Complex.I, 0]

/-- `σ^z|↑⟩ = |↑⟩`, `σ^z|↓⟩ = -|↓⟩`. -/
def sigmaZ : Matrix (Fin 2) (Fin 2) ℂ := !![-1, 0; 0, 1]

/-- `S^+|↓⟩ = |↑⟩`, `S^+|↑⟩ = 0`. -/
def sigmaPlus : Matrix (Fin 2) (Fin 2) ℂ := !![0, 0; 1, 0]

/-- `S^-|↑⟩ = |↓⟩`, `S^-|↓⟩ = 0`. -/
def sigmaMinus : Matrix (Fin 2) (Fin 2) ℂ := !![0, 1; 0, 0]

/-- The occupation number `|1⟩⟨1|`. -/
def occupation : Matrix (Fin 2) (Fin 2) ℂ := !![0, 0; 0, 1]

end JVMC.Spec
