import Mathlib.LinearAlgebra.Matrix.ConjTranspose
import Verif.Spec.Operators
import Verif.Spec.Variational

/-!
# Fermions in occupation number representation

The convention of examples/ex7_fermions.ipynb: `c†_j |s⟩ = (-1)^Ω |s with mode j filled⟩` with
`Ω = s_0 + … + s_{j-1}`, and zero if the mode is filled already.
-/

namespace JVMC.Spec

open Matrix

variable {N : ℕ}

/-- The number of particles in the modes before mode `j`. -/
def particlesBefore (j : Fin N) (s : Fin N → Fin 2) : ℕ := ∑ i, if i < j then (s i : ℕ) else 0

/-- The number of particles. -/
def particles (s : Fin N → Fin 2) : ℕ := ∑ i, (s i : ℕ)

/-- `c†_j`; the entry `(s', s)` is `⟨s'|c†_j|s⟩`. -/
def creator (j : Fin N) : Matrix (Fin N → Fin 2) (Fin N → Fin 2) ℂ := Matrix.of fun s' s =>
  if s j = 0 ∧ s' = Function.update s j 1 then (-1) ^ particlesBefore j s else 0

/-- `c_j`. -/
def annihilator (j : Fin N) : Matrix (Fin N → Fin 2) (Fin N → Fin 2) ℂ := (creator j)ᴴ

/-- One factor of a product of fermionic operators. -/
inductive Letter (N : ℕ) where
  | create (j : Fin N)
  | annihilate (j : Fin N)
  | number (j : Fin N)

/-- The operator of a factor. -/
def Letter.matrix : Letter N → Matrix (Fin N → Fin 2) (Fin N → Fin 2) ℂ
  | .create j => creator j
  | .annihilate j => annihilator j
  | .number j => creator j * annihilator j

/-- How many particles a factor adds. -/
def Letter.charge : Letter N → ℤ
  | .create _ => 1
  | .annihilate _ => -1
  | .number _ => 0

/-- The sum of coefficients times products of fermionic operators. -/
def fermionOperator (terms : List (ℂ × List (Letter N))) : Matrix (Fin N → Fin 2) (Fin N → Fin 2) ℂ :=
  (terms.map fun t => t.1 • (t.2.map Letter.matrix).prod).sum

/-- Every product creates as many particles as it annihilates. -/
def Conserving (terms : List (ℂ × List (Letter N))) : Prop :=
  ∀ t ∈ terms, (t.2.map Letter.charge).sum = 0

/-- Mode `i` of the particles with spin up in a chain of `L` sites. -/
def modeUp (L : ℕ) (i : Fin L) : Fin (2 * L) := ⟨i, by omega⟩

/-- Mode `i` of the particles with spin down; these modes are numbered from the end. -/
def modeDown (L : ℕ) (i : Fin L) : Fin (2 * L) := ⟨2 * L - 1 - i, by omega⟩

/-- Hopping between neighbouring sites of an open chain: `∑_i c†_{i+1} c_i + c†_i c_{i+1}`. -/
noncomputable def hopping {L : ℕ} (mode : Fin L → Fin N) : Matrix (Fin N → Fin 2) (Fin N → Fin 2) ℂ :=
  ∑ i : Fin L, ∑ j : Fin L, if (j : ℕ) = i + 1 then
    creator (mode j) * annihilator (mode i) + creator (mode i) * annihilator (mode j) else 0

/-- `∑_i n_i`. -/
noncomputable def totalNumber {L : ℕ} (mode : Fin L → Fin N) : Matrix (Fin N → Fin 2) (Fin N → Fin 2) ℂ :=
  ∑ i : Fin L, creator (mode i) * annihilator (mode i)

/-- The Hubbard model on an open chain. -/
noncomputable def hubbard (L : ℕ) (t mu V : ℂ) : Matrix (Fin (2 * L) → Fin 2) (Fin (2 * L) → Fin 2) ℂ :=
  V • (∑ i : Fin L, creator (modeUp L i) * annihilator (modeUp L i)
      * (creator (modeDown L i) * annihilator (modeDown L i)))
    + mu • (totalNumber (modeUp L) + totalNumber (modeDown L))
    + t • (hopping (modeUp L) + hopping (modeDown L))

/-- The current from mode `i` to mode `j`. -/
noncomputable def current (i j : Fin N) : Matrix (Fin N → Fin 2) (Fin N → Fin 2) ℂ :=
  Complex.I • (creator j * annihilator i - creator i * annihilator j)

/-- The pairing operator of two modes. -/
noncomputable def pairing (i j : Fin N) : Matrix (Fin N → Fin 2) (Fin N → Fin 2) ℂ :=
  creator i * creator j + annihilator j * annihilator i

end JVMC.Spec
