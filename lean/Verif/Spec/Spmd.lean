import Verif.Model.SpmdCode

/-!
# Specification for C102: what it means that ranks neither hang nor race
-/

namespace JVMC.Spec

/-- The programs `p r` of the ranks `r` return `v r`, whatever the timing of the ranks:
* under every schedule, a rank that has ended has returned `v r` (it has not raised);
* under every schedule, as long as some rank has not ended, some rank can move;
* there is a number of rounds after which all ranks have returned, if every rank gets a turn in every
round (rounds are lists of turns: a rank may have several turns, in any order). -/
def AlwaysReturns {n : ℕ} {α : Type} (p : Fin n → Prog α) (v : Fin n → α) : Prop :=
  (∀ (sched : List (Fin n)) (r : Fin n) (o : Except PyErr α),
    (spmdRun (spmdInit p) sched r).prog.outcome = some o → o = .ok (v r)) ∧
  (∀ sched : List (Fin n), (∃ r, (spmdRun (spmdInit p) sched r).prog.outcome = none) →
    ∃ r, (spmdStep r (spmdRun (spmdInit p) sched)).isSome) ∧
  (∃ bound : ℕ, ∀ rounds : List (List (Fin n)), bound ≤ rounds.length →
    (∀ round ∈ rounds, ∀ r, r ∈ round) →
    ∀ r, (spmdRun (spmdInit p) rounds.flatten r).prog.outcome = some (.ok (v r)))

/-- Rank `r` does not get to its end under any schedule. -/
def HangsForever {n : ℕ} {α : Type} (p : Fin n → Prog α) (r : Fin n) : Prop :=
  ∀ sched : List (Fin n), (spmdRun (spmdInit p) sched r).prog.outcome = none

/-! ## Ingredients that have to be in step -/

/-- The ranks return when all enter and leave the collective operations together. -/
inductive Lockstep {n : ℕ} {α : Type} : (Fin n → Prog α) → (Fin n → α) → Prop where
  | done (v : Fin n → α) : Lockstep (fun r => .ret (v r)) v
  | coll (c : Coll) (hroot : ∀ root, c = .bcast root → root < n) (send : Fin n → List Wired)
      (k : Fin n → List (List Wired) → Prog α) (v : Fin n → α)
      (h : Lockstep (fun r => k r (c.combine send)) v) : Lockstep (fun r => .coll c (send r) (k r)) v

/-- The sampler, `get_O_loc` and `psi.gradients` return on all ranks, in step, what `env` says about all
ranks, whenever the states of the samplers satisfy `inv`, which is preserved. -/
def MeasuresInStep {N n : ℕ} {smp : Type} (inv : (Fin N → smp) → Prop) (env : TdvpEnv n (Fin N → smp))
    (envR : TdvpEnvR n smp) : Prop :=
  ∀ (p : Params) (sm : Fin N → smp) (t : ℝ)
    (w : World (ℝ × (Fin 1 → ℂ) × (Fin (n + 1) → ℂ))) (sm' : Fin N → smp),
    inv sm → env.measure p sm t = .ok (w, sm') →
    inv sm' ∧ ∃ w' : Fin N → List (List (ℝ × (Fin 1 → ℂ) × (Fin (n + 1) → ℂ))), w = List.ofFn w' ∧
      Lockstep (fun r => envR.measure p (sm r) t) fun r => (w' r, sm' r)

/-- On all ranks the right-hand side is evaluated in step and has the same value, whenever the states of
the ranks satisfy `inv`, which it preserves. -/
def RhsInStep {N : ℕ} {M σ : Type} (inv : (Fin N → σ) → Prop) (f : RhsR M σ) : Prop :=
  ∀ (y : M) (t : ℝ) (k : ℕ) (s : Fin N → σ), inv s →
    ∃ (dy : M) (s' : Fin N → σ), inv s' ∧ Lockstep (fun r => f y t k (s r)) fun r => (dy, s' r)

end JVMC.Spec
