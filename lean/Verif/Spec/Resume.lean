import Verif.Spec.OutputManager
import Verif.Spec.Samples
import Verif.Model.Script

/-!
# Specification of resumed simulations
-/

namespace JVMC.Spec

variable {n : ℕ} {smp : Type}

/-- What a script writes in a pass besides the checkpoint: arrays under simple names, in the selected group, for every
dataset with the same shape in all passes. -/
structure Records (G : List String) (m : ℕ) (record : ℝ → List ℝ → List OmOp) : Prop where
  natural : ∀ t w, ∀ op ∈ record t w, Natural op
  same_group : ∀ t w, ∀ op ∈ record t w, ∀ g, op ≠ .setGroup g
  no_checkpoint : ∀ t w, ∀ op ∈ record t w, ∀ t' w', op ≠ .writeCheckpoint t' w'
  shapes : ∀ t w t' w', w.length = m → w'.length = m →
    SameShapes (intended G (record t w) ++ intended G (record t' w'))

/-- A sampler without a state (`ExactSampler`): the samples, local energies and gradients depend on the parameters and
the time only. There are `r` ranks or more, all have samples, with weights that are not negative. -/
def Stateless (env : TdvpEnv n smp) (r : ℕ) : Prop :=
  ∃ joint : Params → ℝ → World (ℝ × (Fin 1 → ℂ) × (Fin (n + 1) → ℂ)),
    (∀ p t sm, ∃ sm', env.measure p sm t = .ok (joint p t, sm')) ∧
    ∀ p t, r < List.length (joint p t) ∧ (∀ rk ∈ joint p t, rk ≠ []) ∧ ∀ s ∈ allSamples (joint p t), 0 ≤ s.1

/-- `psi` is initialised and its network has the parameter tree of `p₀`. -/
def IsNetwork (p₀ : Params) (psi : NqsState) : Prop :=
  ∃ st, psi = some st ∧ st.realParams = p₀.isReal ∧ st.sizes = p₀.sizes ∧ st.params.isReal = p₀.isReal ∧
    st.params.sizes = p₀.sizes

end JVMC.Spec
