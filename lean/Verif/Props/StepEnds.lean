import Mathlib.Topology.MetricSpace.Pseudo.Lemmas
import Mathlib.Analysis.Normed.Group.Basic
import Mathlib.Analysis.Normed.Module.Basic
import Verif.Props.Stepper

/-!
# C49: adaptive steps return for right-hand sides that are bounded close to the present value

Rejected attempts shrink the time step, so that in the end all evaluations are close to the present value.
-/

namespace JVMC

open Spec

variable {M σ : Type} [AddCommGroup M] [Module ℝ M]

/-- The loop ends if all attempts with small time steps are accepted. -/
theorem ahLoop_ends_small (inplace : Bool) (obj : AHeun) (htol : 0 < obj.tolerance) (hmax : 0 < obj.maxStep)
    (f : RRhs M σ) (g : VRhs M σ) (hf : Computes inplace f g) (norm : M → ℝ) (hn : ∀ x, 0 ≤ norm x) (Y : M)
    (t δ : ℝ) (hδ : ∀ dt s, 0 < dt → dt ≤ δ → heunDev g norm t dt Y s ≤ obj.tolerance) (y₀ : ℕ) (N : ℕ) :
    ∀ (fe : Num) (dt : ℝ) (out : Option (M × ℝ)) (h : List M) (s : σ), y₀ < h.length → h.getD y₀ 0 = Y → 0 < dt →
      (0.9 : ℝ) ^ N * dt ≤ δ →
      ∃ n, (((ahBody inplace obj f norm t y₀)^[n] ⟨fe, some dt, out, (h, s)⟩).fe.below 1) = false := by
  have acc : ∀ (fe : Num) (dt : ℝ) (out : Option (M × ℝ)) (h : List M) (s : σ), y₀ < h.length →
      heunDev g norm t dt (h.getD y₀ 0) s ≤ obj.tolerance →
      (ahBody inplace obj f norm t y₀ ⟨fe, some dt, out, (h, s)⟩).fe.below 1 = false := by
    intro fe dt out h s hy hd
    obtain ⟨h', e, _⟩ := ahBody_eq inplace obj f g hf norm t y₀ fe dt out h s hy
    rw [e]
    have hdev0 : 0 ≤ heunDev g norm t dt (h.getD y₀ 0) s := hn _
    unfold Num.quot
    split_ifs with h1 h2
    · rfl
    · rfl
    · simp only [Num.below, decide_eq_false_iff_not, not_lt]
      rw [le_div_iff₀ (lt_of_le_of_ne hdev0 (Ne.symm h1)), one_mul]
      exact hd
  induction N with
  | zero =>
    intro fe dt out h s hy hY hdt hle
    exact ⟨1, acc fe dt out h s hy (by rw [hY]; exact hδ dt s hdt (by simpa using hle))⟩
  | succ N ih =>
    intro fe dt out h s hy hY hdt hle
    by_cases hacc : heunDev g norm t dt (h.getD y₀ 0) s ≤ obj.tolerance
    · exact ⟨1, acc fe dt out h s hy hacc⟩
    · rw [not_le] at hacc
      obtain ⟨h', e, hkeep⟩ := ahBody_eq inplace obj f g hf norm t y₀ fe dt out h s hy
      have hdev : 0 < heunDev g norm t dt (h.getD y₀ 0) s := htol.trans hacc
      generalize heunDev g norm t dt (h.getD y₀ 0) s = dev at *
      have hquot : Num.quot obj.tolerance dev = .fin (obj.tolerance / dev) := by
        unfold Num.quot
        rw [if_neg hdev.ne']
      have hlt : obj.tolerance / dev < 1 := by rw [div_lt_one hdev]; exact hacc
      have hfr := (factor_reject _ (div_nonneg htol.le hdev.le) hlt).1
      rw [hquot, hfr] at e
      obtain ⟨c1, c2⟩ := c49_rejected obj.tolerance obj.maxStep dev dt htol hacc hdt
      have hpos : 0 < min (dt * max 0.2 (0.9 * (obj.tolerance / dev) ^ (0.33333 : ℝ))) obj.maxStep :=
        lt_of_lt_of_le (lt_min (by positivity) hmax) c2
      have hk1 := hkeep.1
      obtain ⟨n, hn'⟩ := ih (.fin (obj.tolerance / dev)) _ (some ((heunPair g t dt (h.getD y₀ 0) s).1.2, dt)) h'
        (heunPair g t dt (h.getD y₀ 0) s).2 (by omega) (by rw [hkeep.2 y₀ hy (by simp), hY]) hpos (by
          refine le_trans ?_ hle
          have hp : (0 : ℝ) ≤ 0.9 ^ N := by positivity
          rw [pow_succ]
          nlinarith [mul_le_mul_of_nonneg_left c1.le hp])
      refine ⟨n + 1, ?_⟩
      rw [Function.iterate_succ_apply, e]
      exact hn'

/-- C49: a step returns if attempts with sufficiently small time steps are accepted, whatever function measures
deviations (e.g. a squared length as in examples/ex5). -/
theorem c49_returns_small (inplace : Bool) (obj : AHeun) (htol : 0 < obj.tolerance) (hmax : 0 < obj.maxStep)
    (hdt : 0 < obj.dt) (f : RRhs M σ) (g : VRhs M σ) (hf : Computes inplace f g) (norm : M → ℝ)
    (hn : ∀ x, 0 ≤ norm x) (t : ℝ) (y : ℕ) (h : List M) (s : σ) (δ : ℝ) (hδ0 : 0 < δ)
    (hδ : ∀ dt s, 0 < dt → dt ≤ δ → heunDev g norm t dt (h.getD y 0) s ≤ obj.tolerance) :
    ∃ r, ahStep inplace obj t f y norm (h, s) = .ok r := by
  obtain ⟨N, hN⟩ : ∃ N : ℕ, (0.9 : ℝ) ^ N * obj.dt ≤ δ := by
    obtain ⟨N, hN⟩ := exists_pow_lt_of_lt_one (show 0 < δ / obj.dt by positivity) (show (0.9 : ℝ) < 1 by norm_num)
    rw [lt_div_iff₀ hdt] at hN
    exact ⟨N, hN.le⟩
  obtain ⟨e1, v1, p1⟩ := newArr_spec (σ := σ) (h.getD y 0) h s
  obtain ⟨n, hn'⟩ := ahLoop_ends_small inplace obj htol hmax f g hf norm hn (h.getD y 0) t δ hδ h.length N (.fin 0.5)
    obj.dt none (h ++ [h.getD y 0]) s (by simp) v1 hdt hN
  obtain ⟨S, hS⟩ := whileLoop_some (fun s : AHState M σ => s.fe.below 1) (ahBody inplace obj f norm t h.length)
    ⟨.fin 0.5, some obj.dt, none, (h ++ [h.getD y 0], s)⟩ ⟨n, hn'⟩
  obtain ⟨m, hSm, hc, hk⟩ := whileLoop_spec _ _ _ _ hS
  obtain ⟨d, s₁, _, ho, _⟩ := ahLoop_spec inplace obj htol f g hf norm hn t h.length
      (h.getD y 0) m (.fin 0.5) obj.dt none _ s (by simp) v1
      (by simp only [Num.below, decide_eq_true_eq]; norm_num) S hSm hk hc
  unfold ahStep
  rw [e1]
  dsimp only
  rw [hS]
  dsimp only
  rw [ho]
  exact ⟨_, rfl⟩

/-- The deviation of an attempt whose evaluations stay close to the present value. -/
theorem dev_le_near (g : VRhs M σ) (norm : M → ℝ) (hn : IsSeminorm norm) (Y : M) (t ρ B : ℝ)
    (hB : ∀ y t' k s, norm (y - Y) ≤ ρ → |t' - t| ≤ ρ → norm (g y t' k s).1 ≤ B) (dt : ℝ) (hdt : 0 ≤ dt)
    (h1 : dt * B ≤ ρ) (h2 : dt ≤ ρ) (s : σ) :
    heunDev g norm t dt Y s ≤ 2 * dt * B := by
  have hz : norm (0 : M) = 0 := le_antisymm (by simpa using hn.smul 0 0) (hn.nonneg 0)
  have hρ : 0 ≤ ρ := hdt.trans h2
  have hB0 : 0 ≤ B := (hn.nonneg _).trans (hB Y t 0 s (by simpa [hz] using hρ) (by simpa using hρ))
  unfold heunDev heunPair
  dsimp only
  generalize hk0 : g Y t 0 s = K0
  have b0 : norm K0.1 ≤ B := hk0 ▸ hB _ _ _ _ (by simpa [hz] using hρ) (by simpa using hρ)
  have q : ∀ c : ℝ, 0 ≤ c → c ≤ 1 → ∀ v, norm v ≤ B → norm ((c * dt) • v) ≤ c * (dt * B) := by
    intro c hc _ v hv
    refine (hn.smul _ _).trans ?_
    rw [abs_of_nonneg (by positivity), mul_assoc]
    exact mul_le_mul_of_nonneg_left (mul_le_mul_of_nonneg_left hv hdt) hc
  have a0 : |t + dt - t| ≤ ρ := by
    rw [add_sub_cancel_left, abs_of_nonneg hdt]
    exact h2
  have a1 : |t + dt / 2 - t| ≤ ρ := by
    rw [add_sub_cancel_left, abs_of_nonneg (by positivity)]
    linarith
  have hdB : 0 ≤ dt * B := mul_nonneg hdt hB0
  generalize hk1 : g (Y + dt • K0.1) (t + dt) 1 K0.2 = K1
  have b1 : norm K1.1 ≤ B := by
    refine hk1 ▸ hB _ _ _ _ ?_ a0
    have := q 1 (by norm_num) (by norm_num) _ b0
    rw [add_sub_cancel_left]
    simp only [one_mul] at this
    linarith
  generalize hk2 : g (Y + (dt / 2) • K0.1) (t + dt / 2) 2 K1.2 = K2
  have b2 : norm K2.1 ≤ B := by
    refine hk2 ▸ hB _ _ _ _ ?_ a1
    have := q (1 / 2) (by norm_num) (by norm_num) _ b0
    rw [add_sub_cancel_left, show dt / 2 = 1 / 2 * dt by ring]
    linarith
  have m : norm ((dt / 4) • (K0.1 + K2.1)) ≤ 1 / 2 * (dt * B) := by
    have e := q (1 / 4) (by norm_num) (by norm_num) _ b0
    have e' := q (1 / 4) (by norm_num) (by norm_num) _ b2
    rw [smul_add, show dt / 4 = 1 / 4 * dt by ring]
    have := hn.add ((1 / 4 * dt) • K0.1) ((1 / 4 * dt) • K2.1)
    linarith
  generalize hk3 : g (Y + (dt / 4) • (K0.1 + K2.1)) (t + dt / 2) 3 K2.2 = K3
  have b3 : norm K3.1 ≤ B := by
    refine hk3 ▸ hB _ _ _ _ ?_ a1
    rw [add_sub_cancel_left]
    linarith
  generalize hk4 : g (Y + (dt / 4) • (K0.1 + K2.1) + (dt / 2) • K3.1) (t + dt) 4 K3.2 = K4
  have b4 : norm K4.1 ≤ B := by
    refine hk4 ▸ hB _ _ _ _ ?_ a0
    rw [add_assoc, add_sub_cancel_left]
    have e := q (1 / 2) (by norm_num) (by norm_num) _ b3
    rw [show (1 / 2 : ℝ) * dt = dt / 2 by ring] at e
    have := hn.add ((dt / 4) • (K0.1 + K2.1)) ((dt / 2) • K3.1)
    linarith
  have e : (dt / 4) • (K0.1 + K2.1) + (dt / 4) • (K3.1 + K4.1) - (dt / 2) • (K0.1 + K1.1)
      = (-(dt / 4)) • K0.1 + ((dt / 4) • K2.1 + ((dt / 4) • K3.1 + ((dt / 4) • K4.1 + (-(dt / 2)) • K1.1))) := by
    module
  rw [e]
  have s0 := hn.smul (-(dt / 4)) K0.1
  have s2 := hn.smul (dt / 4) K2.1
  have s3 := hn.smul (dt / 4) K3.1
  have s4 := hn.smul (dt / 4) K4.1
  have s1 := hn.smul (-(dt / 2)) K1.1
  have c1 := hn.add ((-(dt / 4)) • K0.1) ((dt / 4) • K2.1 + ((dt / 4) • K3.1 + ((dt / 4) • K4.1 + (-(dt / 2)) • K1.1)))
  have c2 := hn.add ((dt / 4) • K2.1) ((dt / 4) • K3.1 + ((dt / 4) • K4.1 + (-(dt / 2)) • K1.1))
  have c3 := hn.add ((dt / 4) • K3.1) ((dt / 4) • K4.1 + (-(dt / 2)) • K1.1)
  have c4 := hn.add ((dt / 4) • K4.1) ((-(dt / 2)) • K1.1)
  rw [abs_neg, abs_of_nonneg (by positivity)] at s0 s1
  rw [abs_of_nonneg (by positivity)] at s2 s3 s4
  nlinarith [hn.nonneg K0.1, hn.nonneg K1.1, hn.nonneg K2.1, hn.nonneg K3.1, hn.nonneg K4.1]

theorem small_step {ρ B tol : ℝ} (hρ : 0 < ρ) (htol : 0 < tol) :
    ∃ δ > 0, ∀ dt, 0 < dt → dt ≤ δ → dt * B ≤ ρ ∧ dt ≤ ρ ∧ 2 * dt * B ≤ tol := by
  have hA : 0 < max B 1 := lt_max_of_lt_right one_pos
  refine ⟨min ρ (min (ρ / max B 1) (tol / (2 * max B 1))), by positivity, fun dt h0 h => ?_⟩
  rw [le_min_iff, le_min_iff, le_div_iff₀ hA, le_div_iff₀ (by positivity)] at h
  have hb : dt * B ≤ dt * max B 1 := mul_le_mul_of_nonneg_left (le_max_left _ _) h0.le
  exact ⟨hb.trans h.2.1, h.1, by linarith [h.2.2]⟩

/-- C49: a step returns if the right-hand side is bounded close to the present value and time. -/
theorem c49_returns_near (inplace : Bool) (obj : AHeun) (htol : 0 < obj.tolerance) (hmax : 0 < obj.maxStep)
    (hdt : 0 < obj.dt) (f : RRhs M σ) (g : VRhs M σ) (hf : Computes inplace f g) (norm : M → ℝ)
    (hn : IsSeminorm norm) (t : ℝ) (y : ℕ) (h : List M) (s : σ) (ρ B : ℝ) (hρ : 0 < ρ)
    (hB : ∀ y' t' k s, norm (y' - h.getD y 0) ≤ ρ → |t' - t| ≤ ρ → norm (g y' t' k s).1 ≤ B) :
    ∃ r, ahStep inplace obj t f y norm (h, s) = .ok r := by
  obtain ⟨δ, hδ, hs⟩ := small_step (B := B) hρ htol
  refine c49_returns_small inplace obj htol hmax hdt f g hf norm hn.nonneg t y h s δ hδ fun dt s' h0 h1 => ?_
  obtain ⟨q1, q2, q3⟩ := hs dt h0 h1
  exact (dev_le_near g norm hn _ t ρ B hB dt h0.le q1 q2 s').trans q3

/-- C49: the same if deviations are measured by a squared length. -/
theorem c49_returns_squared (inplace : Bool) (obj : AHeun) (htol : 0 < obj.tolerance) (hmax : 0 < obj.maxStep)
    (hdt : 0 < obj.dt) (f : RRhs M σ) (g : VRhs M σ) (hf : Computes inplace f g) (norm : M → ℝ)
    (hn : IsSeminorm norm) (t : ℝ) (y : ℕ) (h : List M) (s : σ) (ρ B : ℝ) (hρ : 0 < ρ)
    (hB : ∀ y' t' k s, norm (y' - h.getD y 0) ≤ ρ → |t' - t| ≤ ρ → norm (g y' t' k s).1 ≤ B) :
    ∃ r, ahStep inplace obj t f y (fun x => norm x ^ 2) (h, s) = .ok r := by
  obtain ⟨δ, hδ, hs⟩ := small_step (B := B) hρ (Real.sqrt_pos.mpr htol)
  refine c49_returns_small inplace obj htol hmax hdt f g hf _ (fun x => sq_nonneg _) t y h s δ hδ fun dt s' h0 h1 => ?_
  obtain ⟨q1, q2, q3⟩ := hs dt h0 h1
  have := (dev_le_near g norm hn _ t ρ B hB dt h0.le q1 q2 s').trans q3
  have h0' : 0 ≤ heunDev g norm t dt (h.getD y 0) s' := hn.nonneg _
  calc heunDev g (fun x => norm x ^ 2) t dt (h.getD y 0) s' = heunDev g norm t dt (h.getD y 0) s' ^ 2 := rfl
    _ ≤ Real.sqrt obj.tolerance ^ 2 := pow_le_pow_left₀ h0' this 2
    _ = obj.tolerance := Real.sq_sqrt htol.le

/-- C49: in particular for every right-hand side that is continuous at the present value and time. -/
theorem c49_returns_continuous {V : Type} [NormedAddCommGroup V] [NormedSpace ℝ V] {σ : Type} (inplace : Bool) (obj : AHeun)
    (htol : 0 < obj.tolerance) (hmax : 0 < obj.maxStep) (hdt : 0 < obj.dt) (f : RRhs V σ) (F : V → ℝ → V)
    (hf : Computes inplace f fun y t _ s => (F y t, s)) (t : ℝ) (y : ℕ) (h : List V) (s : σ)
    (hF : ContinuousAt (fun p : V × ℝ => F p.1 p.2) (h.getD y 0, t)) :
    ∃ r, ahStep inplace obj t f y (fun x => ‖x‖) (h, s) = .ok r := by
  obtain ⟨ρ, hρ, hball⟩ := Metric.continuousAt_iff.mp hF 1 one_pos
  refine c49_returns_near inplace obj htol hmax hdt f _ hf _
    ⟨fun x => norm_nonneg x, fun x y => norm_add_le x y, fun c x => (norm_smul c x).le⟩ t y h s (ρ / 2)
    (‖F (h.getD y 0) t‖ + 1) (by positivity) fun y' t' k s' h1 h2 => ?_
  have hd : dist (y', t') (h.getD y 0, t) < ρ := by
    rw [Prod.dist_eq, max_lt_iff, dist_eq_norm, Real.dist_eq]
    constructor <;> linarith
  have := hball hd
  rw [dist_eq_norm] at this
  have h3 := norm_le_norm_add_norm_sub' (F y' t') (F (h.getD y 0) t)
  dsimp only at this ⊢
  linarith

/-- Case: `dy/dt = y²`, which is not bounded. -/
example (y : ℝ) : ∃ r, ahStep true ⟨1e-3, 1e-8, 1⟩ 0 (refRhs fun y _ _ (s : Unit) => (y ^ 2, s)) 0 (fun x : ℝ => ‖x‖) ([y], ()) = .ok r :=
  c49_returns_continuous true ⟨1e-3, 1e-8, 1⟩ (by norm_num) (by norm_num) (by norm_num) _ (fun y _ => y ^ 2)
    (refRhs_computes _ _) _ _ _ _ (by fun_prop)

/-- Case: the same with squared deviations. -/
example : ∃ r, ahStep true ⟨1e-3, 1e-8, 1⟩ 0 (refRhs fun y _ _ (s : Unit) => (y ^ 2, s)) 0 (fun x : ℝ => |x| ^ 2) ([1], ()) = .ok r :=
  c49_returns_squared true ⟨1e-3, 1e-8, 1⟩ (by norm_num) (by norm_num) (by norm_num) _ _ (refRhs_computes _ _) (fun x => |x|)
    ⟨fun x => abs_nonneg x, fun x y => abs_add_le x y, fun c x => (abs_mul c x).le⟩ _ _ _ _ 1 4 (by norm_num)
    (fun y' t' k s h1 _ => by
      simp only [List.getD_cons_zero] at h1
      rw [abs_le] at h1
      simp only [abs_pow]
      have : |y'| ≤ 2 := abs_le.mpr ⟨by linarith, by linarith⟩
      nlinarith [abs_nonneg y'])

/-- A right-hand side whose second evaluations grow from attempt to attempt. -/
noncomputable def growingRhs : VRhs ℝ ℕ := fun _ _ k s => (if k = 1 then 10 ^ s else 0, s + 1)

theorem growing_dev (t dt : ℝ) (hdt : 0 ≤ dt) (s : ℕ) :
    heunDev growingRhs (fun x => |x|) t dt 0 s = 5 * (dt * 10 ^ s) ∧ (heunPair growingRhs t dt 0 s).2 = s + 5 := by
  simp only [heunDev, heunPair, growingRhs]
  norm_num
  rw [abs_of_nonneg (by positivity), pow_succ]
  ring

theorem growing_rejected {dt : ℝ} {s : ℕ} {dt' : ℝ} {s' : ℕ}
    (h : Attempts growingRhs (fun x => |x|) 1 1 0 0 dt s dt' s') : 0 < dt → dt ≤ 1 → 1 ≤ dt * 10 ^ s → False := by
  induction h with
  | accept dt s h =>
    intro h0 _ h1
    rw [(growing_dev 0 dt h0.le s).1] at h
    linarith
  | reject dt s dt' s' h _ ih =>
    intro h0 h1 h2
    obtain ⟨c1, c2⟩ := c49_rejected 1 1 _ dt one_pos h h0
    have h5 : min (dt / 5) 1 = dt / 5 := min_eq_left (by linarith)
    rw [h5] at c2
    refine ih (lt_of_lt_of_le (by positivity) c2) (min_le_right _ _) ?_
    rw [(growing_dev 0 dt h0.le s).2]
    have := mul_le_mul_of_nonneg_right c2 (by positivity : (0 : ℝ) ≤ 10 ^ (s + 5))
    refine le_trans ?_ this
    rw [pow_add]
    nlinarith

/-- C49: without a bound close to the present value a step need not return. -/
theorem c49_unbounded_violated : ¬ ∃ r, ahStep true ⟨1, 1, 1⟩ 0 (refRhs growingRhs) 0 (fun x => |x|) ([0], 0) = .ok r := by
  rintro ⟨⟨⟨y', dt', obj'⟩, ⟨h', s'⟩⟩, h⟩
  obtain ⟨s₁, ha, -⟩ := c49_step_partial true ⟨1, 1, 1⟩ (by norm_num) _ growingRhs (refRhs_computes _ _) _
    (fun x => abs_nonneg x) _ _ _ _ _ _ _ _ _ h
  exact growing_rejected ha one_pos le_rfl (by norm_num)

end JVMC
