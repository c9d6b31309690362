import Verif.Spec.Povm

/-!
# Lindblad master equations on many spins

Textbook definitions, independent of the code. A master equation is described by a list of terms with
real strengths.
-/

namespace JVMC.Spec

open Matrix

/-- The three directions of a spin. -/
inductive Axis where
  | x
  | y
  | z
  deriving DecidableEq

/-- The Pauli matrices in the basis (up, down). -/
def Axis.pauli : Axis → Matrix (Fin 2) (Fin 2) ℂ
  | .x => !![0, 1; 1, 0]
  | .y => !![0, -Complex.I; Complex.I, 0]
  | .z => !![1, 0; 0, -1]

/-- The processes that couple a spin to its environment. -/
inductive Loss where
  | up
  | down
  | dephasing
  deriving DecidableEq

/-- The jump operators `σ⁺`, `σ⁻`, `σ^z` in the basis (up, down). -/
def Loss.jump : Loss → Matrix (Fin 2) (Fin 2) ℂ
  | .up => !![0, 1; 0, 0]
  | .down => !![0, 0; 1, 0]
  | .dephasing => !![1, 0; 0, -1]

/-- A term of a master equation for `N` spins: a field `σ_i`, a coupling `σ_i σ_j`, or a loss process
on one spin. -/
inductive MasterTerm (N : ℕ) where
  | field (c : Axis) (i : Fin N)
  | coupling (c : Axis) (i j : Fin N)
  | loss (c : Loss) (i : Fin N)

variable {N : ℕ}

/-- The couplings are between different spins. -/
def MasterTerm.Proper : MasterTerm N → Prop
  | .coupling _ i j => i ≠ j
  | _ => True

/-- What a term of strength one contributes to the Hamiltonian. -/
def MasterTerm.energy : MasterTerm N → Matrix (Fin N → Fin 2) (Fin N → Fin 2) ℂ
  | .field c i => oneSite c.pauli i
  | .coupling c i j => oneSite c.pauli i * oneSite c.pauli j
  | .loss _ _ => 0

/-- What a term of strength one contributes to the dissipation. -/
noncomputable def MasterTerm.dissipation (t : MasterTerm N)
    (ρ : Matrix (Fin N → Fin 2) (Fin N → Fin 2) ℂ) : Matrix (Fin N → Fin 2) (Fin N → Fin 2) ℂ :=
  match t with
  | .loss c i => lindblad (oneSite c.jump i) ρ
  | _ => 0

/-- The Hamiltonian `H = ∑ g_k σ_k`. -/
noncomputable def totalEnergy (terms : List (ℝ × MasterTerm N)) :
    Matrix (Fin N → Fin 2) (Fin N → Fin 2) ℂ :=
  (terms.map fun t => (t.1 : ℂ) • t.2.energy).sum

/-- The right-hand side of the master equation
`dρ/dt = -i [H, ρ] + ∑ γ_k (L_k ρ L_k† - ½ {L_k† L_k, ρ})`. -/
noncomputable def masterEquation (terms : List (ℝ × MasterTerm N))
    (ρ : Matrix (Fin N → Fin 2) (Fin N → Fin 2) ℂ) : Matrix (Fin N → Fin 2) (Fin N → Fin 2) ℂ :=
  vonNeumann (totalEnergy terms) ρ + (terms.map fun t => (t.1 : ℂ) • t.2.dissipation ρ).sum

/-- Kinds of evolution. -/
inductive Evolution where
  /-- `dρ/dt = -i[A, ρ]` -/
  | unitary
  /-- `dρ/dt = A ρ A† - (A†A ρ + ρ A†A)/2` -/
  | dissipative
  /-- `dρ/dt = -(A ρ + ρ A)` -/
  | imaginary

/-- The right-hand side of the evolution equation. -/
noncomputable def Evolution.rhs {n : Type} [Fintype n] (e : Evolution) (A ρ : Matrix n n ℂ) :
    Matrix n n ℂ :=
  match e with
  | .unitary => vonNeumann A ρ
  | .dissipative => lindblad A ρ
  | .imaginary => imaginaryTime A ρ

/-- `K` generates the evolution of the distribution of the outcomes of the measurement `M`, if the
states evolve with `dρ/dt = Λ ρ`: for every `ρ`, `∑_b K[a, b] P_ρ(b)` is the time derivative of `P_ρ(a)`.
-/
def Generates {ι n : Type} [Fintype ι] [Fintype n] (M : ι → Matrix n n ℂ) (K : ι → ι → ℂ)
    (Λ : Matrix n n ℂ → Matrix n n ℂ) : Prop :=
  ∀ ρ a, ∑ b, K a b * outcomeProb M ρ b = outcomeProb M (Λ ρ) a

end JVMC.Spec
