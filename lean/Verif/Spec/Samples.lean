import Mathlib.Data.Complex.Basic
import Mathlib.Data.Complex.BigOperators
import Mathlib.LinearAlgebra.Complex.Module

/-!
# Specification vocabulary: weighted samples

Plain textbook definitions on *one flat list* of weighted samples, with no reference to
ranks, devices or batches. Used to state what the distributed reductions should compute.
-/

namespace JVMC.Spec

/-- All samples of all ranks and devices as one list. -/
def allSamples {A : Type*} (world : List (List (List A))) : List A :=
  world.flatten.flatten

/-- `∑_j p_j X_j`. -/
def wMean {A : Type*} [AddCommMonoid A] [SMul ℝ A] (l : List (ℝ × A)) : A :=
  (l.map fun s => s.1 • s.2).sum

/-- `∑_j p_j |X_j - mean|²`, component `k`. -/
noncomputable def wVar {ι : Type*} (l : List (ℝ × (ι → ℂ))) (k : ι) : ℝ :=
  (l.map fun s => s.1 * Complex.normSq (s.2 k - wMean l k)).sum

/-- `∑_j p_j X_j X_j^† - (∑_j p_j X_j)(∑_j p_j X_j^†)`, entry `(i, k)`. -/
noncomputable def wCov {ι : Type*} (l : List (ℝ × (ι → ℂ))) (i k : ι) : ℂ :=
  (l.map fun s => (s.1 : ℂ) * (s.2 i * (starRingEnd ℂ) (s.2 k))).sum
    - wMean l i * (starRingEnd ℂ) (wMean l k)

/-- Two observables sampled together: `∑_n p_n conj(A_n - mean A)_i (B_n - mean B)_k`. -/
noncomputable def wCross {ι κ : Type*} (l : List (ℝ × (ι → ℂ) × (κ → ℂ))) (i : ι) (k : κ) : ℂ :=
  (l.map fun s => (s.1 : ℂ) *
    ((starRingEnd ℂ) (s.2.1 i - wMean (l.map fun s => (s.1, s.2.1)) i)
      * (s.2.2 k - wMean (l.map fun s => (s.1, s.2.2)) k))).sum

end JVMC.Spec
