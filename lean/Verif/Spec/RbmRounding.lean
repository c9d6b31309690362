import Verif.Model.RbmRounding

/-!
# Specification: accurate elementary functions
-/

namespace JVMC.Spec

/-- The elementary functions of the machine have relative errors of at most `v`. -/
structure Accurate (F : ElemFuns) (v : ℝ) : Prop where
  cosh : ∀ x, |F.cosh x - Real.cosh x| ≤ v * Real.cosh x
  exp : ∀ x, |F.exp x - Real.exp x| ≤ v * Real.exp x
  log : ∀ x, 0 < x → |F.log x - Real.log x| ≤ v * |Real.log x|
  log1p : ∀ x, 0 < x → |F.log1p x - Real.log (1 + x)| ≤ v * Real.log (1 + x)

/-- The size of the parameters that belong to the hidden unit `j`. -/
noncomputable def unitSize {n m : ℕ} (kernel : Fin n → Fin m → ℝ) (bias : Option (Fin m → ℝ)) (j : Fin m) : ℝ :=
  ∑ i, |kernel i j| + (match bias with
    | none => 0
    | some b => |b j|)

/-- Bound of the error of the coefficient of a Boltzmann machine (`c145_rbm`): precision `u` of the arithmetic, `v` of the
elementary functions. -/
noncomputable def rbmError (u v : ℝ) {n m : ℕ} (kernel : Fin n → Fin m → ℝ) (bias : Option (Fin m → ℝ)) : ℝ :=
  ((2 * (n + 2) + 6 * m) * u + 3 * v) * ∑ j, (1 + unitSize kernel bias j)

end JVMC.Spec
