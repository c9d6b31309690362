import Mathlib.Algebra.BigOperators.Group.List.Basic
import Mathlib.Data.Complex.Basic

/-! # Specification for C125: sums over all samples -/

namespace JVMC.Spec

/-- All numbers held by all ranks and devices. -/
def everything {A : Type} (world : List (List (List A))) : List A := world.flatten.flatten

/-- `∑ p x`. -/
def wsum (l : List (ℝ × ℝ)) : ℝ := (l.map fun s => s.1 * s.2).sum

/-- `∑ |p x|`. -/
def wabs (l : List (ℝ × ℝ)) : ℝ := (l.map fun s => |s.1 * s.2|).sum

/-- `∑ |x|`. -/
def sabs (l : List ℝ) : ℝ := (l.map fun x => |x|).sum

/-- `∑ p |x - m|²`. -/
def spreadAround (l : List (ℝ × ℂ)) (m : ℂ) : ℝ := (l.map fun s => s.1 * Complex.normSq (s.2 - m)).sum

/-- `∑ p x` for complex numbers. -/
def wmean (l : List (ℝ × ℂ)) : ℂ := (l.map fun s => (s.1 : ℂ) * s.2).sum

/-- `y` is `x` up to `k` relative errors of at most `u`. -/
def WithinFactor (u : ℝ) (k : ℕ) (x y : ℝ) : Prop := ∃ t, (1 - u) ^ k ≤ t ∧ t ≤ (1 + u) ^ k ∧ y = t * x

/-- The same numbers in the same places, up to `k` relative errors of at most `u` each. -/
def SameUpTo {A : Type} (value : A → ℝ) (u : ℝ) (k : ℕ) : List (List (List A)) → List (List (List ℝ)) → Prop :=
  List.Forall₂ (List.Forall₂ (List.Forall₂ fun s y => WithinFactor u k (value s) y))

/-- At most `n` numbers on a device, `d` devices on a rank and `k` ranks. -/
structure AtMost {A : Type} (n d k : ℕ) (world : List (List (List A))) : Prop where
  samples : ∀ rk ∈ world, ∀ dev ∈ rk, dev.length ≤ n
  devices : ∀ rk ∈ world, rk.length ≤ d
  ranks : world.length ≤ k
  pos : 1 ≤ n ∧ 1 ≤ d ∧ 1 ≤ k

end JVMC.Spec
