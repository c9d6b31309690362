import Mathlib.Data.Fintype.Card
import Verif.Spec.Variational

/-!
# Sectors of configurations
-/

namespace JVMC.Spec

/-- As many spins down (`0`) as up (`1`). -/
def UpAsDown {n : ℕ} (c : Fin n → Fin 2) : Prop :=
  (Finset.univ.filter fun i => c i = 0).card = (Finset.univ.filter fun i => c i = 1).card

/-- The component of a wave function in a sector of configurations. -/
noncomputable def partIn {C : Type} (P : C → Prop) (ψ : C → ℂ) (c : C) : ℂ := by
  classical exact if P c then ψ c else 0

/-- The operator does not connect configurations in the sector with configurations outside. -/
def KeepsSector {C : Type} (P : C → Prop) (O : Matrix C C ℂ) : Prop := ∀ c c', O c c' ≠ 0 → (P c ↔ P c')

/-- `⟨φ|O|ψ⟩ / ⟨φ|φ⟩` for the component `φ` of `ψ` in the sector. -/
noncomputable def mixedExpect {C : Type} [Fintype C] (P : C → Prop) (O : Matrix C C ℂ) (ψ : C → ℂ) : ℂ :=
  (∑ c, (starRingEnd ℂ) (partIn P ψ c) * (O.mulVec ψ) c) / (norm2 (partIn P ψ) : ℂ)

end JVMC.Spec
