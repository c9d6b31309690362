import Mathlib.Algebra.Group.Submonoid.Membership
import Verif.Model.Symmetries

/-!
# Specification of lattice symmetries

A symmetry acts on the spins `±1` of the sites.
-/

namespace JVMC.Spec

open Matrix

/-- Each site gets the spin of another one, different sites from different ones; possibly all are flipped. -/
def SignedPermutation {n : ℕ} (M : Matrix (Fin n) (Fin n) ℤ) : Prop :=
  ∃ (σ : Equiv.Perm (Fin n)) (e : ℤ), (e = 1 ∨ e = -1) ∧ ∀ s i, (M *ᵥ s) i = e * s (σ i)

/-- Translation of a chain by one site: site `j` is moved to `j + 1`, periodically. -/
def IsShift1D {L : ℕ} (M : Matrix (Fin L) (Fin L) ℤ) : Prop :=
  ∀ s (i j : Fin L), (j.val + 1) % L = i.val → (M *ᵥ s) i = s j

/-- Reflection of a chain: site `j` is moved to `L - 1 - j`. -/
def IsReflection1D {L : ℕ} (M : Matrix (Fin L) (Fin L) ℤ) : Prop :=
  ∀ s (i j : Fin L), j.val + i.val + 1 = L → (M *ᵥ s) i = s j

/-- All spins are flipped. -/
def IsSpinflip {n : ℕ} (M : Matrix (Fin n) (Fin n) ℤ) : Prop := ∀ s i, (M *ᵥ s) i = -s i

/-- The requested symmetries of a chain. -/
def gens1D (L : ℕ) (translation reflection spinflip : Bool) : Set (Matrix (Fin L) (Fin L) ℤ) :=
  {M | translation ∧ IsShift1D M ∨ reflection ∧ IsReflection1D M ∨ spinflip ∧ IsSpinflip M}

/-- The site in row `i` and column `j` of a square lattice. -/
def site {L : ℕ} (i j : Fin L) : Fin (L * L) :=
  ⟨i.val * L + j.val, by
    have h1 := Nat.mul_le_mul_right L (Nat.succ_le_of_lt i.isLt)
    have h2 := j.isLt
    rw [Nat.succ_mul] at h1
    omega⟩

/-- Every row is moved down by one, periodically. -/
def IsShiftRows {L : ℕ} (M : Matrix (Fin (L * L)) (Fin (L * L)) ℤ) : Prop :=
  ∀ s (i k j : Fin L), (k.val + 1) % L = i.val → (M *ᵥ s) (site i j) = s (site k j)

/-- Every column is moved to the right by one, periodically. -/
def IsShiftCols {L : ℕ} (M : Matrix (Fin (L * L)) (Fin (L * L)) ℤ) : Prop :=
  ∀ s (i j k : Fin L), (k.val + 1) % L = j.val → (M *ᵥ s) (site i j) = s (site i k)

/-- The order of the rows is reversed. -/
def IsFlipRows {L : ℕ} (M : Matrix (Fin (L * L)) (Fin (L * L)) ℤ) : Prop :=
  ∀ s (i k j : Fin L), k.val + i.val + 1 = L → (M *ᵥ s) (site i j) = s (site k j)

/-- The order of the columns is reversed. -/
def IsFlipCols {L : ℕ} (M : Matrix (Fin (L * L)) (Fin (L * L)) ℤ) : Prop :=
  ∀ s (i j k : Fin L), k.val + j.val + 1 = L → (M *ᵥ s) (site i j) = s (site i k)

/-- Rotation by 90 degrees: row `r` becomes column `L - 1 - r`. -/
def IsRotation {L : ℕ} (M : Matrix (Fin (L * L)) (Fin (L * L)) ℤ) : Prop :=
  ∀ s (i j r : Fin L), r.val + j.val + 1 = L → (M *ᵥ s) (site i j) = s (site r i)

/-- The requested symmetries of a square lattice. -/
def gens2D (L : ℕ) (translation reflection rotation spinflip : Bool) :
    Set (Matrix (Fin (L * L)) (Fin (L * L)) ℤ) :=
  {M | translation ∧ (IsShiftRows M ∨ IsShiftCols M) ∨ reflection ∧ (IsFlipRows M ∨ IsFlipCols M) ∨
    rotation ∧ IsRotation M ∨ spinflip ∧ IsSpinflip M}

/-- `os` lists the group generated by `gens`: every element once; there are a unit and inverses. -/
structure IsGroupList {n : ℕ} (gens : Set (Matrix (Fin n) (Fin n) ℤ)) (os : List (Matrix (Fin n) (Fin n) ℤ)) : Prop where
  nodup : os.Nodup
  one : 1 ∈ os
  mul : ∀ M ∈ os, ∀ N ∈ os, M * N ∈ os
  inv : ∀ M ∈ os, ∃ N ∈ os, M * N = 1 ∧ N * M = 1
  signed : ∀ M ∈ os, SignedPermutation M
  generated : ∀ M, M ∈ os ↔ M ∈ Submonoid.closure gens

/-- The order of matrices by their first different entry, row by row. -/
def RowLex {n : ℕ} (M N : Matrix (Fin n) (Fin n) ℤ) : Prop :=
  M = N ∨ ∃ i j, M i j < N i j ∧ ∀ i' j', (i' < i ∨ i' = i ∧ j' < j) → M i' j' = N i' j'

/-- A one-dimensional representation of the group generated by `gens`. -/
structure IsCharacter {n : ℕ} (gens : Set (Matrix (Fin n) (Fin n) ℤ)) (χ : Matrix (Fin n) (Fin n) ℤ → ℂ) : Prop where
  one : χ 1 = 1
  mul : ∀ M ∈ Submonoid.closure gens, ∀ N ∈ Submonoid.closure gens, χ (M * N) = χ M * χ N

end JVMC.Spec
