import Verif.Spec.Basis

/-! # Specification: wave functions whose normalisation changes slowly -/

namespace JVMC.Spec

/-- The largest real part of the logarithmic amplitudes is `m`. -/
def PeakAt (logPsi : List ℂ) (m : ℝ) : Prop := (∃ z ∈ logPsi, z.re = m) ∧ ∀ z ∈ logPsi, z.re ≤ m

/-- A history of wave functions on at most `K` configurations: the largest real part of the logarithmic amplitudes is at
most `A` in modulus, and changes by at most `d` from each to the next. -/
def SlowHistory (d : ℝ) (K : ℕ) (A : ℝ) : ℝ → List (List ℂ) → Prop
  | _, [] => True
  | m, l :: ls => ∃ m', PeakAt l m' ∧ |m' - m| ≤ d ∧ |m'| ≤ A ∧ l.length ≤ K ∧ SlowHistory d K A m' ls

/-- The finite numbers of double precision: 53 binary digits, exponents from -1074 to 971. -/
def IsDouble (x : ℝ) : Prop := ∃ m e : ℤ, |m| < 2 ^ 53 ∧ -1074 ≤ e ∧ e ≤ 971 ∧ x = m * 2 ^ e

end JVMC.Spec
