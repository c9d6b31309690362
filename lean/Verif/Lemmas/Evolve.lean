import Verif.Model.Evolve
import Verif.Props.Convergence
import Verif.Props.Resume

/-!
# Steps of the script `ex2_unitary_time_evolution.py`
-/

namespace JVMC

open Spec Set

variable {n : ℕ} {smp O : Type}

/-- `s` is not an exception, and `psi` has the parameter tree of `p₀`. -/
def GoodRhs (p₀ : Params) (s : SimRhs n smp) : Prop := ∃ psi rhs, s = .ok (psi, rhs) ∧ IsNetwork p₀ psi

theorem tdvpRhs_psi (env : TdvpEnv n smp) (cfg : TdvpCfg n) (r : ℕ) (p₀ : Params) (x : Fin (n + 1) → ℝ) (t : ℝ) (k : ℕ)
    (psi psi' : NqsState) (rhs rhs' : smp × TdvpAttrs n) (hpsi : IsNetwork p₀ psi)
    (h : (tdvpRhs env cfg r x t k (.ok (psi, rhs))).2 = .ok (psi', rhs')) : psi' = psi := by
  obtain ⟨sm, at₀⟩ := rhs
  unfold tdvpRhs at h
  dsimp only at h
  generalize hc : (tdvpCall env cfg r (List.ofFn x) t (some k) sm at₀).call psi = c at h
  obtain ⟨res, q⟩ := c
  rcases res with e | ⟨u, at₁, sm'⟩
  · cases h
  · cases u with
    | none => cases h
    | some u =>
      dsimp only at h
      obtain ⟨rfl, -⟩ := Prod.mk.inj (Except.ok.inj h)
      obtain ⟨ops, hops, rfl⟩ := isNetwork_reached p₀ psi hpsi
      have := c44_restores env cfg r (List.ofFn x) t (some k) sm at₀ p₀ ops hops (some u, at₁, sm') (by rw [hc])
      rw [hc] at this
      exact this

/-- The states before the last one are not exceptions. -/
theorem tdvpRhs_good (env : TdvpEnv n smp) (cfg : TdvpCfg n) (r : ℕ) (p₀ : Params) (x : Fin (n + 1) → ℝ) (t : ℝ) (k : ℕ)
    (s : SimRhs n smp) (hs : ∀ a, s = .ok a → IsNetwork p₀ a.1) (h : ∃ a, (tdvpRhs env cfg r x t k s).2 = .ok a) :
    GoodRhs p₀ s ∧ GoodRhs p₀ (tdvpRhs env cfg r x t k s).2 := by
  cases s with
  | error e => obtain ⟨a, h⟩ := h; cases h
  | ok a =>
    obtain ⟨psi, rhs⟩ := a
    obtain ⟨⟨psi', rhs'⟩, h⟩ := h
    have hp := hs _ rfl
    exact ⟨⟨psi, rhs, rfl, hp⟩, ⟨psi', rhs', h, tdvpRhs_psi env cfg r p₀ x t k psi psi' rhs rhs' hp h ▸ hp⟩⟩

theorem tdvpRhs_keeps (env : TdvpEnv n smp) (cfg : TdvpCfg n) (r : ℕ) (p₀ : Params) (x : Fin (n + 1) → ℝ) (t : ℝ) (k : ℕ)
    (s : SimRhs n smp) (hs : ∀ a, s = .ok a → IsNetwork p₀ a.1) :
    ∀ a, (tdvpRhs env cfg r x t k s).2 = .ok a → IsNetwork p₀ a.1 := by
  intro a ha
  obtain ⟨psi, rhs, h1, h2⟩ := (tdvpRhs_good env cfg r p₀ x t k s hs ⟨a, ha⟩).2
  rw [ha] at h1
  obtain rfl := Except.ok.inj h1
  exact h2

/-- Calls, as if they happened at time `t₀ + t`; where they raise an exception, `F`. -/
noncomputable def shiftedRhs (env : TdvpEnv n smp) (cfg : TdvpCfg n) (r : ℕ) (p₀ : Params) (t₀ : ℝ)
    (F : (Fin (n + 1) → ℝ) → Fin (n + 1) → ℝ) : VRhs (Fin (n + 1) → ℝ) (SimRhs n smp) := fun x t k s =>
  open Classical in
  if GoodRhs p₀ s ∧ ∃ a, (tdvpRhs env cfg r x (t - t₀) k s).2 = .ok a then tdvpRhs env cfg r x (t - t₀) k s
  else (F x, (tdvpRhs env cfg r x (t - t₀) k s).2)

theorem shiftedRhs_eq (env : TdvpEnv n smp) (cfg : TdvpCfg n) (r : ℕ) (p₀ : Params) (t₀ : ℝ)
    (F : (Fin (n + 1) → ℝ) → Fin (n + 1) → ℝ) (x : Fin (n + 1) → ℝ) (t : ℝ) (k : ℕ) (s : SimRhs n smp)
    (hs : ∀ a, s = .ok a → IsNetwork p₀ a.1) (h : ∃ a, (tdvpRhs env cfg r x t k s).2 = .ok a) :
    shiftedRhs env cfg r p₀ t₀ F x (t₀ + t) k s = tdvpRhs env cfg r x t k s := by
  unfold shiftedRhs
  rw [add_sub_cancel_left]
  exact if_pos ⟨(tdvpRhs_good env cfg r p₀ x t k s hs h).1, h⟩

theorem shiftedRhs_snd (env : TdvpEnv n smp) (cfg : TdvpCfg n) (r : ℕ) (p₀ : Params) (t₀ : ℝ)
    (F : (Fin (n + 1) → ℝ) → Fin (n + 1) → ℝ) (x : Fin (n + 1) → ℝ) (t : ℝ) (k : ℕ) (s : SimRhs n smp) :
    (shiftedRhs env cfg r p₀ t₀ F x t k s).2 = (tdvpRhs env cfg r x (t - t₀) k s).2 := by
  unfold shiftedRhs
  split_ifs <;> rfl

theorem tdvpRhs_ok_before (env : TdvpEnv n smp) (cfg : TdvpCfg n) (r : ℕ) (x : Fin (n + 1) → ℝ) (t : ℝ) (k : ℕ)
    (s : SimRhs n smp) (h : ∃ a, (tdvpRhs env cfg r x t k s).2 = .ok a) : ∃ a, s = .ok a := by
  cases s with
  | error e => obtain ⟨a, h⟩ := h; cases h
  | ok a => exact ⟨a, rfl⟩

/-- If no call of two half steps raises an exception, neither matters that the times are shifted. -/
theorem heunPair_shifted (env : TdvpEnv n smp) (cfg : TdvpCfg n) (r : ℕ) (p₀ : Params) (t₀ : ℝ)
    (F : (Fin (n + 1) → ℝ) → Fin (n + 1) → ℝ) (x : Fin (n + 1) → ℝ) (d : ℝ) (s : SimRhs n smp)
    (hs : ∀ a, s = .ok a → IsNetwork p₀ a.1) (h : ∃ a, (heunPair (tdvpRhs env cfg r) 0 d x s).2 = .ok a) :
    heunPair (shiftedRhs env cfg r p₀ t₀ F) t₀ d x s = heunPair (tdvpRhs env cfg r) 0 d x s ∧
      GoodRhs p₀ (heunPair (tdvpRhs env cfg r) 0 d x s).2 := by
  unfold heunPair at h ⊢
  dsimp only at h ⊢
  simp only [zero_add] at h ⊢
  have e0 := @shiftedRhs_eq n smp env cfg r p₀ t₀ F
  have e0' : ∀ (x : Fin (n + 1) → ℝ) (k : ℕ) (s : SimRhs n smp), (∀ a, s = .ok a → IsNetwork p₀ a.1) →
      (∃ a, (tdvpRhs env cfg r x 0 k s).2 = .ok a) →
      shiftedRhs env cfg r p₀ t₀ F x t₀ k s = tdvpRhs env cfg r x 0 k s := by
    intro x k s h1 h2
    have := e0 x 0 k s h1 h2
    rwa [add_zero] at this
  generalize hc0 : tdvpRhs env cfg r x 0 0 s = c0 at *
  have k0 := tdvpRhs_keeps env cfg r p₀ x 0 0 s hs
  rw [hc0] at k0
  generalize hc1 : tdvpRhs env cfg r (x + d • c0.1) d 1 c0.2 = c1 at *
  have k1 := tdvpRhs_keeps env cfg r p₀ (x + d • c0.1) d 1 c0.2 k0
  rw [hc1] at k1
  generalize hc2 : tdvpRhs env cfg r (x + (d / 2) • c0.1) (d / 2) 2 c1.2 = c2 at *
  have k2 := tdvpRhs_keeps env cfg r p₀ (x + (d / 2) • c0.1) (d / 2) 2 c1.2 k1
  rw [hc2] at k2
  generalize hm : x + (d / 4) • (c0.1 + c2.1) = xm at *
  generalize hc3 : tdvpRhs env cfg r xm (d / 2) 3 c2.2 = c3 at *
  have k3 := tdvpRhs_keeps env cfg r p₀ xm (d / 2) 3 c2.2 k2
  rw [hc3] at k3
  generalize hc4 : tdvpRhs env cfg r (xm + (d / 2) • c3.1) d 4 c3.2 = c4 at *
  have g4 := tdvpRhs_good env cfg r p₀ (xm + (d / 2) • c3.1) d 4 c3.2 k3 (by rw [hc4]; exact h)
  have o3 : ∃ a, c3.2 = .ok a := tdvpRhs_ok_before env cfg r (xm + (d / 2) • c3.1) d 4 _ (by rw [hc4]; exact h)
  have o2 : ∃ a, c2.2 = .ok a := tdvpRhs_ok_before env cfg r xm (d / 2) 3 _ (by rw [hc3]; exact o3)
  have o1 : ∃ a, c1.2 = .ok a := tdvpRhs_ok_before env cfg r (x + (d / 2) • c0.1) (d / 2) 2 _ (by rw [hc2]; exact o2)
  have o0 : ∃ a, c0.2 = .ok a := tdvpRhs_ok_before env cfg r (x + d • c0.1) d 1 _ (by rw [hc1]; exact o1)
  rw [e0' x 0 s hs (by rw [hc0]; exact o0), hc0, e0 _ d 1 _ k0 (by rw [hc1]; exact o1), hc1,
    e0 _ (d / 2) 2 _ k1 (by rw [hc2]; exact o2), hc2, hm, e0 _ (d / 2) 3 _ k2 (by rw [hc3]; exact o3), hc3,
    e0 _ d 4 _ k3 (by rw [hc4]; exact h), hc4]
  rw [hc4] at g4
  exact ⟨rfl, g4.2⟩

theorem heunPair_keeps (env : TdvpEnv n smp) (cfg : TdvpCfg n) (r : ℕ) (p₀ : Params) (x : Fin (n + 1) → ℝ) (t d : ℝ)
    (s : SimRhs n smp) (hs : ∀ a, s = .ok a → IsNetwork p₀ a.1) :
    ∀ a, (heunPair (tdvpRhs env cfg r) t d x s).2 = .ok a → IsNetwork p₀ a.1 := by
  unfold heunPair
  dsimp only
  have k := tdvpRhs_keeps env cfg r p₀
  exact k _ _ _ _ (k _ _ _ _ (k _ _ _ _ (k _ _ _ _ (k _ _ _ _ hs))))

theorem attempts_keeps (env : TdvpEnv n smp) (cfg : TdvpCfg n) (r : ℕ) (p₀ : Params) (norm : (Fin (n + 1) → ℝ) → ℝ)
    {tol mx t : ℝ} {x : Fin (n + 1) → ℝ} {dt dt' : ℝ} {s s' : SimRhs n smp}
    (h : Attempts (tdvpRhs env cfg r) norm tol mx t x dt s dt' s') (hs : ∀ a, s = .ok a → IsNetwork p₀ a.1) :
    ∀ a, s' = .ok a → IsNetwork p₀ a.1 := by
  induction h with
  | accept _ _ _ => exact hs
  | reject dt s _ _ _ _ ih => exact ih (heunPair_keeps env cfg r p₀ x t dt s hs)

end JVMC
