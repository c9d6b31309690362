import Mathlib.Data.Complex.Basic

/-!
# Real parameters that come in pairs

A network that is holomorphic in complex parameters, seen as a function of their real and imaginary
parts: the derivative with respect to an imaginary part is `i` times the one with respect to the real
part.
-/

namespace JVMC.Spec

/-- `partner` pairs up the parameters: one of each pair is a real part, the other an imaginary part. -/
structure IsPairing {m : ℕ} (partner : Fin m → Fin m) (isRe : Fin m → Bool) : Prop where
  invol : ∀ k, partner (partner k) = k
  flip : ∀ k, isRe (partner k) = !isRe k

/-- The derivatives `O_k` of a holomorphic function. -/
def HoloGrad {m : ℕ} (partner : Fin m → Fin m) (isRe : Fin m → Bool) (O : Fin m → ℂ) : Prop :=
  ∀ k, isRe k = true → O (partner k) = Complex.I * O k

end JVMC.Spec
