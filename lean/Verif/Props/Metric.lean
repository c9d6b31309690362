import Verif.Model.SDot
import Verif.Props.EnergyDrift
import Verif.Props.MasterTdvp
import Verif.Props.SpmdRun

/-!
# C115 — `TDVP.S_dot` is the metric of the last evaluation

`normFun` is `norm_fun(v, df=tdvpEquation.S_dot)` of the examples, which pass it to `AdaptiveHeun` as
`normFunction`. `wVar` is the variance of weighted samples, `speedAt` the squared speed of the state up to norm and
phase, `fisherLength` the squared length of a change of a distribution, `adapt` what a step of `AdaptiveHeun`
computes (C105).
-/

namespace JVMC

open Spec Matrix Set

section

variable {n : ℕ} {smp : Type}

/-- The variance of `∑_k v_k O_k` over the samples, where `O_k` are the gradients. -/
noncomputable def gradVariance (l : List (ℝ × (Fin 1 → ℂ) × (Fin (n + 1) → ℂ))) (v : Fin (n + 1) → ℝ) : ℝ :=
  wVar (l.map fun s => (s.1, fun _ : Fin 1 => ∑ k, (v k : ℂ) * s.2.2 k)) 0

theorem gradVariance_distance (l : List (ℝ × (Fin 1 → ℂ) × (Fin (n + 1) → ℂ))) (v : Fin (n + 1) → ℝ) :
    gradVariance l v = tdvpDistance l 0 v := by
  unfold gradVariance wVar tdvpDistance
  rw [List.map_map]
  have hm : wMean (l.map fun s => (s.1, fun _ : Fin 1 => ∑ k, (v k : ℂ) * s.2.2 k)) 0
      = ∑ k, (v k : ℂ) * wMean (l.map fun s => (s.1, s.2.2)) k := by
    unfold wMean
    rw [List.map_map, List.map_map]
    induction l with
    | nil => simp
    | cons a l ih =>
      simp only [List.map_cons, List.sum_cons, Pi.add_apply, Function.comp_apply, Pi.smul_apply, Complex.real_smul,
        mul_add, Finset.sum_add_distrib] at ih ⊢
      rw [ih, Finset.mul_sum]
      congr 1
      exact Finset.sum_congr rfl fun k _ => by ring
  rw [hm]
  congr 1
  refine List.map_congr_left fun s _ => ?_
  simp only [Function.comp_apply, zero_mul, sub_zero, add_zero, mul_sub, Finset.sum_sub_distrib]

theorem gradVariance_nonneg (l : List (ℝ × (Fin 1 → ℂ) × (Fin (n + 1) → ℂ))) (hw : ∀ s ∈ l, 0 ≤ s.1)
    (v : Fin (n + 1) → ℝ) : 0 ≤ gradVariance l v := by
  unfold gradVariance wVar
  refine List.sum_nonneg fun x hx => ?_
  rw [List.map_map, List.mem_map] at hx
  obtain ⟨s, hs, rfl⟩ := hx
  exact mul_nonneg (hw s hs) (Complex.normSq_nonneg _)

theorem normFun_spec (cfg : TdvpCfg n) (l : List (ℝ × (Fin 1 → ℂ) × (Fin (n + 1) → ℂ))) (v : Fin (n + 1) → ℝ) :
    normFun (some (some (specEqn cfg l))) v = .ok (some (gradVariance l v)) := by
  have h1 := distance_split l 0 v
  have h3 : tdvpDistance l 0 0 = 0 := by simp [tdvpDistance]
  have h5 : (∑ i, (v i : ℂ) * (-(0 : ℂ) * specF l i)).re = 0 := by simp
  rw [h3, h5, zero_add, mul_zero, sub_zero, ← gradVariance_distance] at h1
  rw [h1]
  simp only [normFun, sDot, Except.map, Option.map, specEqn, Matrix.mulVec, dotProduct, Finset.mul_sum]

/-- C115: before the first call, `S_dot` raises `AttributeError`. -/
theorem c115_missing (v : Fin (n + 1) → ℝ) : sDot ({} : TdvpAttrs n).eqn v = .error .attributeError := rfl

/-- C115: after any call, at any stage of an integration scheme and whatever the configuration (regularisation,
diagonal shift, real or imaginary part, cross validation) and the history, `norm_fun(v, df=S_dot)` is the variance of
`∑_k v_k O_k` over the samples of that call, where `O_k` are the gradients. -/
theorem c115_call {env : TdvpEnv n smp} {cfg : TdvpCfg n} {r : ℕ} {netP : List ℝ} {t : ℝ} {k : Option ℕ} {sm sm' : smp}
    {at₀ at₁ : TdvpAttrs n} {st : NqsInit} {st' : NqsState} {u : Flt (Fin (n + 1) → ℝ)}
    (h : (tdvpCall env cfg r netP t k sm at₀).call (some st) = (.ok (u, at₁, sm'), st')) {p : Params}
    (hp : paramUnflatten st.realParams st.sizes netP = .ok p)
    {joint : World (ℝ × (Fin 1 → ℂ) × (Fin (n + 1) → ℂ))} (hm : env.measure p sm t = .ok (joint, sm'))
    (h1 : ∀ rk ∈ joint, rk ≠ []) (h2 : ∀ s ∈ allSamples joint, 0 ≤ s.1) (h3 : r < List.length joint)
    (v : Fin (n + 1) → ℝ) :
    normFun at₁.eqn v = .ok (some (gradVariance (allSamples joint) v)) ∧
      0 ≤ gradVariance (allSamples joint) v := by
  rw [call_eqn env cfg r netP t k sm sm' at₀ at₁ st st' u p hp joint hm h1 h2 h3 h]
  exact ⟨normFun_spec cfg _ v, gradVariance_nonneg _ h2 v⟩

end

section states

variable {n : ℕ} {C : Type} [Fintype C] [DecidableEq C] {kernel : C → List (C × ℂ)} {O : Matrix C C ℂ} {ε : ℝ}
  {logPsi : (Fin (n + 1) → ℝ) → C → ℂ} {θ : Fin (n + 1) → ℝ} {grads : C → Fin (n + 1) → ℂ}
  {w : World (C × ℂ × ℝ)} {smp : Type}

/-- C115 for wave functions: with samples of relative error `ε`, this variance is the squared speed of the state,
up to norm and phase, when the parameters move with velocity `v`; up to the factor `1 ± ε`. -/
theorem c115_wave [Nonempty C] (hst : SampledStep ε kernel O logPsi θ grads w) (hε : ε ≤ 1) (v : Fin (n + 1) → ℝ) :
    (1 - ε) * speedAt logPsi θ v
        ≤ gradVariance (allSamples (tdvpJoint O (fun c => Complex.exp (logPsi θ c)) grads w)) v ∧
      gradVariance (allSamples (tdvpJoint O (fun c => Complex.exp (logPsi θ c)) grads w)) v
        ≤ (1 + ε) * speedAt logPsi θ v := by
  have h := sampled_offRay hst hε 0 v
  simp only [zero_mul, add_zero] at h
  rw [gradVariance_distance]
  exact h

omit [DecidableEq C] in
/-- C115: the squared speed vanishes if and only if the state changes by a factor only. -/
theorem c115_zero [Nonempty C] (logPsi : (Fin (n + 1) → ℝ) → C → ℂ) (θ v : Fin (n + 1) → ℝ) :
    speedAt logPsi θ v = 0 ↔ ∃ z : ℂ, ∀ s, stateVelocity logPsi θ v s = z * Complex.exp (logPsi θ s) := by
  obtain ⟨s₀⟩ := id ‹Nonempty C›
  have hZ : 0 < norm2 fun c => Complex.exp (logPsi θ c) := norm2_pos _ s₀ (Complex.exp_ne_zero _)
  unfold speedAt offRay
  rw [div_eq_zero_iff, or_iff_left hZ.ne']
  constructor
  · intro h
    refine ⟨(∑ c, (starRingEnd ℂ) (Complex.exp (logPsi θ c)) * stateVelocity logPsi θ v c)
      / (norm2 fun c => Complex.exp (logPsi θ c) : ℝ), fun s => ?_⟩
    unfold norm2 at h
    have := (Finset.sum_eq_zero_iff_of_nonneg fun _ _ => Complex.normSq_nonneg _).mp h s (Finset.mem_univ s)
    exact sub_eq_zero.mp (Complex.normSq_eq_zero.mp this)
  · rintro ⟨z, hz⟩
    have h1 : (∑ c, (starRingEnd ℂ) (Complex.exp (logPsi θ c)) * stateVelocity logPsi θ v c)
        = z * (norm2 fun c => Complex.exp (logPsi θ c) : ℝ) := by
      unfold norm2
      rw [Complex.ofReal_sum, Finset.mul_sum]
      refine Finset.sum_congr rfl fun c _ => ?_
      rw [hz c, Complex.normSq_eq_conj_mul_self]
      ring
    rw [h1, mul_div_cancel_right₀ _ (by exact_mod_cast hZ.ne')]
    unfold norm2
    refine Finset.sum_eq_zero fun s _ => ?_
    beta_reduce
    rw [hz s, sub_self, map_zero]

/-- C115 for distributions (`logProbFactor = 1`, POVM dynamics): with exactly weighted samples, the variance is the
squared length of the change of the distribution in the Fisher-Rao metric. -/
theorem c115_distribution [Nonempty C] {A : Matrix C C ℝ} {logP : (Fin (n + 1) → ℝ) → C → ℝ}
    (hst : MasterStep kernel A logP θ grads w) (v : Fin (n + 1) → ℝ) :
    gradVariance (allSamples (tdvpJoint (A.map Complex.ofReal) (fun c => Complex.exp (logP θ c)) grads w)) v
      = fisherLength (distribution (logP θ)) (probVelocity logP θ v) := by
  have h0 : MasterStep (fun _ => []) (0 : Matrix C C ℝ) logP θ grads w :=
    ⟨⟨fun s s' => by simp [elementOf], ⟨0, fun _ => rfl⟩, fun s => by simp [AboveThreshold]⟩, fun s' => by simp, hst.differentiable, hst.gradients, hst.samples, hst.weights⟩
  have h1 := c101_distance h0 v
  simp only [Matrix.zero_mulVec, Pi.zero_apply, sub_zero] at h1
  refine Eq.trans ?_ h1
  have hz : ∀ ψ : C → ℂ, localValue ((0 : Matrix C C ℝ).map Complex.ofReal) ψ = 0 := by
    intro ψ
    funext s
    simp [localValue]
  have hw0 : ∀ l : List (ℝ × (Fin 1 → ℂ)), (∀ s ∈ l, s.2 = 0) → wMean l = 0 := by
    intro l hl
    unfold wMean
    refine List.sum_eq_zero fun x hx => ?_
    obtain ⟨s, hs, rfl⟩ := List.mem_map.mp hx
    rw [hl s hs, smul_zero]
  rw [gradVariance_distance]
  unfold tdvpDistance tdvpJoint
  simp only [allSamples_wmap, List.map_map, Function.comp_def, hz, zero_mul, add_zero]
  rw [hw0 _ (by
    intro s hs
    obtain ⟨y, -, rfl⟩ := List.mem_map.mp hs
    rfl)]
  simp

end states

section adaptive

variable {M V : Type} [AddCommGroup M] [Module ℝ M]

/-- The last attempt of a step of `AdaptiveHeun`: from `y`, with the time step `d`, one Heun step to `coarse` and two
Heun steps with `d / 2` to `fine`; the right-hand side `g` is evaluated for the last time at `last`, with `s` before
and `s'` after this evaluation. -/
def LastAttempt (g : M → ℝ → ℕ → V → Option (M × V)) (t : ℝ) (y : M) (d : ℝ) (coarse fine last : M) (s s' : V) :
    Prop :=
  ∃ k0 k1 k10 k01 k11 s0 s1 s2 s3, g y t 0 s0 = some (k0, s1) ∧ g (y + d • k0) (t + d) 1 s1 = some (k1, s2) ∧
    coarse = y + (d / 2) • (k0 + k1) ∧
    g (y + (d / 2) • k0) (t + d / 2) 2 s2 = some (k10, s3) ∧
    g (y + (d / 4) • (k0 + k10)) (t + d / 2) 3 s3 = some (k01, s) ∧
    last = y + (d / 4) • (k0 + k10) + (d / 2) • k01 ∧
    g last (t + d) 4 s = some (k11, s') ∧
    fine = y + (d / 4) • (k0 + k10) + (d / 4) • (k01 + k11)

theorem quality_le {tol x : ℝ} (htol : 0 < tol) (h : (Num.quot tol x).below 1 = false) : x ≤ tol := by
  unfold Num.quot at h
  by_cases hx : x = 0
  · rw [hx]
    exact htol.le
  · rw [if_neg hx] at h
    have h1 : 1 ≤ tol / x := by
      simpa [Num.below] using h
    rcases lt_or_gt_of_ne hx with hneg | hpos
    · linarith
    · rwa [le_div_iff₀ hpos, one_mul] at h1

/-- What `AdaptiveHeun` accepts. -/
theorem adapt_last (g : M → ℝ → ℕ → V → Option (M × V)) (norm : V → M → ℝ) (I : V → Prop)
    (hI : ∀ y t k s u s', I s → g y t k s = some (u, s') → I s') (obj : AHeun) (htol : 0 < obj.tolerance) (t : ℝ)
    (y : M) (passes : ℕ) (dt : ℝ) (s : V) (hs : I s) {fine : M} {d : ℝ} {next : Flt ℝ} {s' : V}
    (h : adapt g norm obj t y passes dt s = some (fine, d, next, s')) :
    ∃ coarse last s₄, LastAttempt g t y d coarse fine last s₄ s' ∧ I s₄ ∧ norm s' (fine - coarse) ≤ obj.tolerance := by
  induction passes generalizing dt s with
  | zero => simp [adapt] at h
  | succ passes ih =>
    rw [adapt] at h
    obtain ⟨⟨k0, s1⟩, e0, h⟩ := Option.bind_eq_some_iff.mp h
    obtain ⟨⟨k1, s2⟩, e1, h⟩ := Option.bind_eq_some_iff.mp h
    obtain ⟨⟨k10, s3⟩, e2, h⟩ := Option.bind_eq_some_iff.mp h
    obtain ⟨⟨k01, s4⟩, e3, h⟩ := Option.bind_eq_some_iff.mp h
    obtain ⟨⟨k11, s5⟩, e4, h⟩ := Option.bind_eq_some_iff.mp h
    have i1 := hI _ _ _ _ _ _ hs e0
    have i2 := hI _ _ _ _ _ _ i1 e1
    have i3 := hI _ _ _ _ _ _ i2 e2
    have i4 := hI _ _ _ _ _ _ i3 e3
    have i5 := hI _ _ _ _ _ _ i4 e4
    dsimp only at h
    split at h
    · exact ih _ _ i5 h
    · rename_i hno
      simp only [Option.some.injEq, Prod.mk.injEq] at h
      obtain ⟨rfl, rfl, -, rfl⟩ := h
      refine ⟨_, _, s4, ⟨k0, k1, k10, k01, k11, s, s1, s2, s3, e0, e1, rfl, e2, e3, rfl, e4, rfl⟩, i4, ?_⟩
      refine quality_le htol ?_
      by_contra hb
      rw [Bool.not_eq_false] at hb
      obtain ⟨x, hx⟩ : ∃ x, Num.quot obj.tolerance (norm s5 (y + (dt / 4) • (k0 + k10) + (dt / 4) • (k01 + k11)
          - (y + (dt / 2) • (k0 + k1)))) = .fin x := by
        cases hq : Num.quot obj.tolerance (norm s5 (y + (dt / 4) • (k0 + k10) + (dt / 4) • (k01 + k11)
          - (y + (dt / 2) • (k0 + k1)))) with
        | nan => rw [hq] at hb; simp [Num.below] at hb
        | inf => rw [hq] at hb; simp [Num.below] at hb
        | fin x => exact ⟨x, rfl⟩
      rw [hx] at hno hb
      exact hno _ hb rfl

variable {n : ℕ} {smp : Type}

/-- The state of the network object: the parameters have the shapes of `p₀`. -/
def ShapedLike (p₀ : Params) (x : RankState n smp) : Prop := ∃ st, x.1 = some st ∧ st.realParams = p₀.isReal ∧ st.sizes = p₀.sizes

theorem evaluate_shaped {env : TdvpEnv n smp} {cfg : TdvpCfg n} {r : ℕ} {p₀ : Params} {y : Fin (n + 1) → ℝ} {t : ℝ}
    {k : ℕ} {x x' : RankState n smp} {u : Fin (n + 1) → ℝ} (hx : ShapedLike p₀ x)
    (h : evaluate env cfg r y t k x = some (u, x')) :
    ShapedLike p₀ x' ∧ ∃ st, x.1 = some st ∧ st.realParams = p₀.isReal ∧ st.sizes = p₀.sizes ∧
      (tdvpCall env cfg r (List.ofFn y) t (some k) x.2.2 x.2.1).call (some st) = (.ok (some u, x'.2.1, x'.2.2), x'.1) := by
  obtain ⟨st, h1, h2, h3⟩ := hx
  have hc : (tdvpCall env cfg r (List.ofFn y) t (some k) x.2.2 x.2.1).call (some st)
      = (.ok (some u, x'.2.1, x'.2.2), x'.1) := by
    unfold evaluate at h
    rw [h1] at h
    split at h
    · rename_i u' at₁ sm psi heq
      simp only [Option.some.injEq, Prod.mk.injEq] at h
      obtain ⟨rfl, rfl⟩ := h
      exact heq
    · cases h
  obtain ⟨_, _, _, _, _, _, p', -, -, -, -, -, hst, -⟩ := tdvpCall_ok env cfg r _ t (some k) _ _ _ _ st _ _ hc
  exact ⟨⟨_, hst, h2, h3⟩, st, h1, h2, h3, hc⟩

/-- C115: a step of `AdaptiveHeun` with the norm `norm_fun(v, df=S_dot)` accepts the result of the two half steps only
if the variance of `∑_k v_k O_k`, for the difference `v` to the result of one Heun step, is at most the tolerance;
the variance is over the samples of the last evaluation. -/
theorem c115_adaptive {env : TdvpEnv n smp} {r : ℕ} (hgood : ∀ (θ : Fin (n + 1) → ℝ) p sm t, flattenParams p = List.ofFn θ →
      ∀ joint sm', env.measure p sm t = .ok (joint, sm') → (∀ rk ∈ joint, rk ≠ []) ∧ (∀ s ∈ allSamples joint, 0 ≤ s.1) ∧ r < List.length joint)
    (cfg : TdvpCfg n) (p₀ : Params) (hp₀ : (flattenParams p₀).length = n + 1) (obj : AHeun)
    (htol : 0 < obj.tolerance) (t : ℝ) (y : Fin (n + 1) → ℝ) (passes : ℕ) (dt : ℝ) (x : RankState n smp)
    (hx : ShapedLike p₀ x) {fine : Fin (n + 1) → ℝ} {d : ℝ} {next : Flt ℝ} {x' : RankState n smp}
    (h : adapt (evaluate env cfg r) (fun w => sDotNorm w.2.1.eqn) obj t y passes dt x = some (fine, d, next, x')) :
    ∃ coarse last x₄ p joint, LastAttempt (evaluate env cfg r) t y d coarse fine last x₄ x' ∧
      flattenParams p = List.ofFn last ∧ env.measure p x₄.2.2 (t + d) = .ok (joint, x'.2.2) ∧
      gradVariance (allSamples joint) (fine - coarse) ≤ obj.tolerance := by
  obtain ⟨coarse, last, x₄, hla, hI, hn⟩ := adapt_last _ _ (ShapedLike p₀)
    (fun _ _ _ _ _ _ hs he => (evaluate_shaped hs he).1) obj htol t y passes dt x hx h
  have hla' := hla
  obtain ⟨k0, k1, k10, k01, k11, s0, s1, s2, s3, -, -, -, -, -, -, he, -⟩ := hla'
  obtain ⟨-, st, -, w1, w2, hc⟩ := evaluate_shaped hI he
  obtain ⟨q, hq, -, -, hq3⟩ := paramUnflatten_ok st.realParams st.sizes (List.ofFn last)
    (by rw [List.length_ofFn, w1, w2, ← flatten_length_params, hp₀])
  obtain ⟨p, joint, -, -, -, -, -, hp, hm, -⟩ := tdvpCall_ok env cfg r _ _ _ _ _ _ _ st _ _ hc
  obtain rfl := Except.ok.inj (hq.symm.trans hp)
  obtain ⟨g1, g2, g3⟩ := hgood _ _ _ _ hq3 _ _ hm
  refine ⟨coarse, last, x₄, q, joint, hla, hq3, hm, ?_⟩
  have := (c115_call hc hp hm g1 g2 g3 (fine - coarse)).1
  simp only [sDotNorm, this] at hn
  exact hn

variable {C : Type} [Fintype C] [DecidableEq C] {kernel : C → List (C × ℂ)}

omit [DecidableEq C] in
theorem sampled_input {O : Matrix C C ℂ} {ψ logψ : C → ℂ} {grads : C → Fin (n + 1) → ℂ}
    {w : World (C × ℂ × ℝ)} (hs : SamplesOf logψ w) (hw : ∀ x ∈ allSamples w, 0 ≤ x.2.2) {r : ℕ}
    (hr : r < List.length w) :
    (∀ rk ∈ tdvpJoint O ψ grads w, rk ≠ []) ∧ (∀ s ∈ allSamples (tdvpJoint O ψ grads w), 0 ≤ s.1) ∧
      r < List.length (tdvpJoint O ψ grads w) := by
  refine ⟨World.map_ne _ _ hs.devices, ?_, by simpa [tdvpJoint, World.map] using hr⟩
  intro s hs
  unfold tdvpJoint at hs
  rw [allSamples_wmap] at hs
  obtain ⟨y, hy, rfl⟩ := List.mem_map.mp hs
  exact hw y hy

/-- C115 for wave functions: the difference of the two results, as a change of the parameters `last` of the last
evaluation, changes the state by at most `√tol` up to norm and phase (for exact samples, `ε = 0`). -/
theorem c115_adaptive_wave [Nonempty C] {O : Matrix C C ℂ} {ε : ℝ} {logPsi : (Fin (n + 1) → ℝ) → C → ℂ}
    {env : TdvpEnv n smp} {r : ℕ} (hε : ε ≤ 1) (henv : SampledWithin ε kernel O logPsi env r)
    (cfg : TdvpCfg n) (p₀ : Params) (hp₀ : (flattenParams p₀).length = n + 1) (obj : AHeun)
    (htol : 0 < obj.tolerance) (t : ℝ) (y : Fin (n + 1) → ℝ) (passes : ℕ) (dt : ℝ) (x : RankState n smp)
    (hx : ShapedLike p₀ x) {fine : Fin (n + 1) → ℝ} {d : ℝ} {next : Flt ℝ} {x' : RankState n smp}
    (h : adapt (evaluate env cfg r) (fun w => sDotNorm w.2.1.eqn) obj t y passes dt x = some (fine, d, next, x')) :
    ∃ coarse last x₄, LastAttempt (evaluate env cfg r) t y d coarse fine last x₄ x' ∧
      (1 - ε) * speedAt logPsi last (fine - coarse) ≤ obj.tolerance := by
  obtain ⟨coarse, last, x₄, p, joint, hla, hp, hm, hle⟩ := c115_adaptive (r := r) (fun θ p sm t hp joint sm' hm => by
    obtain ⟨grads, w, hst, hr, rfl⟩ := henv θ p sm t hp joint sm' hm
    exact sampled_input hst.samples hst.nonneg hr) cfg p₀ hp₀ obj htol t y passes dt x hx h
  obtain ⟨grads, w, hst, hr, rfl⟩ := henv last p _ _ hp joint _ hm
  exact ⟨coarse, last, x₄, hla, (c115_wave hst hε _).1.trans hle⟩

/-- C115 for distributions: the change of the distribution is at most `√tol` in the Fisher-Rao metric. -/
theorem c115_adaptive_distribution [Nonempty C] {A : Matrix C C ℝ} {logP : (Fin (n + 1) → ℝ) → C → ℝ}
    {env : TdvpEnv n smp} {r : ℕ}
    (henv : ∀ θ p sm t, flattenParams p = List.ofFn θ → ∀ joint sm', env.measure p sm t = .ok (joint, sm') →
      ∃ grads w, MasterStep kernel A logP θ grads w ∧ r < List.length w ∧
        joint = tdvpJoint (A.map Complex.ofReal) (fun c => Complex.exp (logP θ c)) grads w)
    (cfg : TdvpCfg n) (p₀ : Params) (hp₀ : (flattenParams p₀).length = n + 1) (obj : AHeun)
    (htol : 0 < obj.tolerance) (t : ℝ) (y : Fin (n + 1) → ℝ) (passes : ℕ) (dt : ℝ) (x : RankState n smp)
    (hx : ShapedLike p₀ x) {fine : Fin (n + 1) → ℝ} {d : ℝ} {next : Flt ℝ} {x' : RankState n smp}
    (h : adapt (evaluate env cfg r) (fun w => sDotNorm w.2.1.eqn) obj t y passes dt x = some (fine, d, next, x')) :
    ∃ coarse last x₄, LastAttempt (evaluate env cfg r) t y d coarse fine last x₄ x' ∧
      fisherLength (distribution (logP last)) (probVelocity logP last (fine - coarse)) ≤ obj.tolerance := by
  obtain ⟨coarse, last, x₄, p, joint, hla, hp, hm, hle⟩ := c115_adaptive (r := r) (fun θ p sm t hp joint sm' hm => by
    obtain ⟨grads, w, hst, hr, rfl⟩ := henv θ p sm t hp joint sm' hm
    exact sampled_input hst.samples hst.nonneg hr) cfg p₀ hp₀ obj htol t y passes dt x hx h
  obtain ⟨grads, w, hst, hr, rfl⟩ := henv last p _ _ hp joint _ hm
  refine ⟨coarse, last, x₄, hla, ?_⟩
  rw [← c115_distribution hst]
  exact hle

end adaptive

section cases

/-! ### Cases: attempts are accepted if the tolerance is large enough -/

theorem adapt_accepts {M V : Type} [AddCommGroup M] [Module ℝ M] (g : M → ℝ → ℕ → V → Option (M × V))
    (norm : V → M → ℝ) (I : V → Prop)
    (hg : ∀ y t k s, I s → ∃ u s', g y t k s = some (u, s') ∧ I s' ∧ ∀ v, 0 ≤ norm s' v) (t : ℝ) (y : M) (dt m : ℝ)
    (s : V) (hs : I s) : ∃ tol > 0, ∃ fine next s', adapt g norm ⟨dt, tol, m⟩ t y 1 dt s = some (fine, dt, next, s') := by
  obtain ⟨k0, s1, e0, i1, -⟩ := hg y t 0 s hs
  obtain ⟨k1, s2, e1, i2, -⟩ := hg (y + dt • k0) (t + dt) 1 s1 i1
  obtain ⟨k10, s3, e2, i3, -⟩ := hg (y + (dt / 2) • k0) (t + dt / 2) 2 s2 i2
  obtain ⟨k01, s4, e3, i4, -⟩ := hg (y + (dt / 4) • (k0 + k10)) (t + dt / 2) 3 s3 i3
  obtain ⟨k11, s5, e4, -, hn⟩ := hg (y + (dt / 4) • (k0 + k10) + (dt / 2) • k01) (t + dt) 4 s4 i4
  set x := norm s5 (y + (dt / 4) • (k0 + k10) + (dt / 4) • (k01 + k11) - (y + (dt / 2) • (k0 + k1))) with hx
  have hx0 : 0 ≤ x := hn _
  refine ⟨x + 1, by linarith, y + (dt / 4) • (k0 + k10) + (dt / 4) • (k01 + k11),
    (ahFactor (Num.quot (x + 1) x)).map fun c => min (dt * c) m, s5, ?_⟩
  have hb : (Num.quot (x + 1) x).below 1 = false := by
    unfold Num.quot
    by_cases h0 : x = 0
    · rw [if_pos h0, if_neg (by linarith)]
      rfl
    · rw [if_neg h0]
      have hpos : 0 < x := lt_of_le_of_ne hx0 (Ne.symm h0)
      have : ¬ (x + 1) / x < 1 := by
        rw [not_lt, le_div_iff₀ hpos]
        linarith
      simp [Num.below, this]
  rw [adapt]
  simp only [e0, e1, e2, e3, e4, bind, Option.bind, ← hx, hb]

/-- A network with one parameter. -/
theorem one_evaluates {env : TdvpEnv 0 Unit} {cfg : TdvpCfg 0} (hex : cfg.isExact = true) (heigh : EighCorrect cfg)
    (hc : 0 < cfg.pinvCutoff) (hc' : cfg.pinvCutoff < 1e-2) (ht : cfg.pinvTol < 1)
    (henv : ∀ (θ : Fin 1 → ℝ) p t, flattenParams p = List.ofFn θ → ∃ joint, env.measure p () t = .ok (joint, ()) ∧
      (∀ rk ∈ joint, rk ≠ []) ∧ (∀ s ∈ allSamples joint, 0 ≤ s.1) ∧ 0 < List.length joint ∧
      specQS cfg (allSamples joint) 0 0 ≠ 0)
    (y : Fin 1 → ℝ) (t : ℝ) (k : ℕ) (x : RankState 0 Unit) (hx : x.1 = nqsRun (.real [[0]]) [.eval]) :
    ∃ u x', evaluate env cfg 0 y t k x = some (u, x') ∧ x'.1 = nqsRun (.real [[0]]) [.eval] ∧
      ∀ v, 0 ≤ sDotNorm x'.2.1.eqn v := by
  obtain ⟨psi, atX, ⟨⟩⟩ := x
  have hops : ∀ op ∈ [NqsOp.eval], op.Fits (.real [[0]]) := by simp [NqsOp.Fits]
  have hinit : nqsRun (.real [[0]]) [.eval] ≠ none :=
    (c25_initialised_iff _ _).mpr ⟨.eval, List.mem_singleton_self _, rfl⟩
  obtain ⟨q, hq, -, -, hq3⟩ := paramUnflatten_ok (Params.real [[0]]).isReal (Params.real [[0]]).sizes (List.ofFn y)
    (by simp [Params.isReal, Params.sizes, numEntries])
  obtain ⟨joint, hm, h1, h2, h3, hS⟩ := henv y q t hq3
  obtain ⟨u, at₁, hcall⟩ := c44_returns env cfg hc hc' ht 0 (List.ofFn y) t (some k) () () atX _ _ hops hinit q hq
    joint hm h1 h2 h3
  obtain ⟨st, hst⟩ := Option.ne_none_iff_exists'.mp hinit
  have hw := wf_run _ _ hops st hst
  have hcall' := hcall
  rw [hst] at hcall
  have hp' : paramUnflatten st.realParams st.sizes (List.ofFn y) = .ok q := by rw [hw.1, hw.2.1]; exact hq
  have hu : ∃ u', u = some u' := by
    obtain ⟨p', joint', E, G, res, atS, -, hp, hm', hd, hs, -, -, hn, hz⟩ :=
      tdvpCall_ok env cfg 0 (List.ofFn y) t (some k) () () atX at₁ st (some st) u hcall
    obtain rfl := Except.ok.inj (hp'.symm.trans hp)
    obtain ⟨rfl, -⟩ := Prod.mk.inj (Except.ok.inj (hm.symm.trans hm'))
    have hi : TdvpInput joint 0 E G := ⟨h1, h2, h3, hd⟩
    have hH := specQS_hermitian cfg (allSamples joint)
    obtain ⟨hun, hdec, -⟩ := heigh _ hH
    set S := specQS cfg (allSamples joint) with hSdef
    set V := (cfg.eigh S).2 with hV
    set ev := (cfg.eigh S).1 with hev
    have hne : ev (Fin.last 0) ≠ 0 := by
      intro h0
      have hz0 : (Matrix.diagonal fun k => (ev k : ℂ)) = 0 := by
        ext i j
        rw [Fin.fin_one_eq_zero i, Fin.fin_one_eq_zero j, Matrix.diagonal_apply_eq]
        exact congrArg Complex.ofReal h0
      rw [hz0, Matrix.mul_zero] at hdec
      have hVV : V * Vᴴ = 1 := mul_eq_one_comm.mp hun
      have : S = 0 := by
        rw [← Matrix.mul_one S, ← hVV, ← Matrix.mul_assoc, hdec, Matrix.zero_mul]
      rw [this] at hS
      exact hS rfl
    have key : ∀ atA atB res', tdvpSolve cfg 0 (some (E, G)) atA = .ok (res', atB) → ∃ u', res'.update = some u' :=
      fun atA atB res' hres => ⟨_, c45_formula cfg 0 joint E G hi atA atB _ S _
        (getTdvpEquation_eq cfg 0 _ h1 h2 h3 E G hd atA) res' hres ev V rfl hne hc (fun _ => 0) (Or.inl hex)⟩
    by_cases hk : (some k : Option ℕ) = some 0
    · obtain ⟨err, -, hf, htr⟩ := hz hk
      by_cases hcv : cfg.crossValidation = true
      · obtain ⟨res', atS', cv, hs', hu, -⟩ := crossValidate_ok _ 0 E G _ _ at₁ u (htr hcv)
        rw [hu]
        exact key _ _ _ hs'
      · rw [(hf (by simpa using hcv)).1]
        exact key _ _ _ hs
    · rw [(hn hk).1]
      exact key _ _ _ hs
  obtain ⟨u', rfl⟩ := hu
  refine ⟨u', (nqsRun (.real [[0]]) [.eval], at₁, ()), ?_, rfl, fun v => ?_⟩
  · unfold evaluate
    dsimp only at hx ⊢
    rw [hx, hcall']
  · have := c115_call hcall hp' hm h1 h2 h3 v
    simp only [sDotNorm, this.1]
    exact this.2

/-- Two configurations with the gradients 0 and 1. -/
theorem two_points (cfg : TdvpCfg 0) (hq : cfg.makeReal = "real") (hd : cfg.diagonalShift = 0) (a : ℝ) (h0 : 0 < a)
    (h1 : 0 < 1 - a) (e₀ e₁ : Fin 1 → ℂ) (l : List (ℝ × (Fin 1 → ℂ) × (Fin 1 → ℂ)))
    (hl : l = [(1 - a, e₀, ![0]), (a, e₁, ![1])]) : specQS cfg l 0 0 ≠ 0 := by
  have hS : specS l 0 0 = ((a * (1 - a) : ℝ) : ℂ) := by
    rw [hl]
    simp [specS, wCross, wMean]
    ring
  unfold specQS
  rw [if_neg (by rw [hd]; norm_num), Matrix.of_apply, hS]
  have : cfg.q ((a * (1 - a) : ℝ) : ℂ) = ((a * (1 - a) : ℝ) : ℂ) := by
    unfold TdvpCfg.q
    rw [hq]
    simp
  rw [this]
  exact_mod_cast (mul_pos h0 h1).ne'

theorem tilt_good (θ : Fin 1 → ℝ) (p : Params) (t : ℝ) (hp : flattenParams p = List.ofFn θ) :
    ∃ joint, tiltEnv.measure p () t = .ok (joint, ()) ∧
      (∀ rk ∈ joint, rk ≠ []) ∧ (∀ s ∈ allSamples joint, 0 ≤ s.1) ∧ 0 < List.length joint ∧
      specQS tiltCfg (allSamples joint) 0 0 ≠ 0 := by
  obtain ⟨grads, w, hst, hr, hj⟩ := tilt_sampled.within θ p () t hp _ () rfl
  obtain ⟨h1, h2, h3⟩ := sampled_input (O := tiltMatrix) (ψ := fun c => Complex.exp (tiltLog θ c)) (grads := grads)
    hst.samples hst.nonneg hr
  rw [← hj] at h1 h2 h3
  refine ⟨_, rfl, h1, h2, h3, ?_⟩
  set a := Real.exp ((flattenParams p).headD 0) ^ 2 / (1 + Real.exp ((flattenParams p).headD 0) ^ 2) with ha
  have hpos := Real.exp_pos ((flattenParams p).headD 0)
  have hb : 1 / (1 + Real.exp ((flattenParams p).headD 0) ^ 2) = 1 - a := by
    rw [ha]
    field_simp
    ring
  refine two_points tiltCfg rfl rfl a (by rw [ha]; positivity) (by rw [← hb]; positivity)
    (fun _ => localValue tiltMatrix (fun c => Complex.exp (tiltLog (fun _ => (flattenParams p).headD 0) c)) 0)
    (fun _ => localValue tiltMatrix (fun c => Complex.exp (tiltLog (fun _ => (flattenParams p).headD 0) c)) 1) _ ?_
  simp only [tdvpJoint, tiltWorld, World.map, allSamples, tiltGrads, hb, ← ha]
  simp

/-- Case for `c115_call`, `c115_wave`, `c115_adaptive` and `c115_adaptive_wave`: a spin, imaginary-time evolution. -/
example (y : Fin 1 → ℝ) (t dt : ℝ) : ∃ tol > 0, ∃ fine next x' coarse last x₄,
    adapt (evaluate tiltEnv tiltCfg 0) (fun w => sDotNorm w.2.1.eqn) ⟨dt, tol, 1⟩ t y 1 dt
      (nqsRun (.real [[0]]) [.eval], {}, ()) = some (fine, dt, next, x') ∧
    LastAttempt (evaluate tiltEnv tiltCfg 0) t y dt coarse fine last x₄ x' ∧
    (1 - 0) * speedAt tiltLog last (fine - coarse) ≤ tol := by
  obtain ⟨tol, htol, fine, next, x', h⟩ := adapt_accepts (evaluate tiltEnv tiltCfg 0) (fun w => sDotNorm w.2.1.eqn)
    (fun x => x.1 = nqsRun (.real [[0]]) [.eval])
    (fun y t k s hs => one_evaluates rfl (someEigh_correct _ rfl) (by norm_num [tiltCfg]) (by norm_num [tiltCfg])
      (by norm_num [tiltCfg]) tilt_good y t k s hs) t y dt 1 (nqsRun (.real [[0]]) [.eval], {}, ()) rfl
  obtain ⟨coarse, last, x₄, h1, h2⟩ := c115_adaptive_wave zero_le_one tilt_sampled.within tiltCfg (.real [[0]])
    (by simp [flattenParams]) ⟨dt, tol, 1⟩ htol t y 1 dt _ ⟨_, rfl, rfl, rfl⟩ h
  exact ⟨tol, htol, fine, next, x', coarse, last, x₄, h, h1, h2⟩

/-- A distribution with one parameter: `log P = (0, θ)`. -/
noncomputable def coinLog (θ : Fin 1 → ℝ) (s : Fin 2) : ℝ := θ 0 * s.val

noncomputable def coinWorld (a : ℝ) : World (Fin 2 × ℂ × ℝ) :=
  [[[(0, 0, 1 - Real.exp a / (1 + Real.exp a)), (1, (a : ℂ), Real.exp a / (1 + Real.exp a))]]]

/-- `relaxMatrix`: jumps between the two configurations with rate 1. -/
noncomputable def coinEnv : TdvpEnv 0 Unit :=
  ⟨fun p _ _ => .ok (tdvpJoint (relaxMatrix.map Complex.ofReal)
    (fun c => Complex.exp (coinLog (fun _ => (flattenParams p).headD 0) c)) tiltGrads
    (coinWorld ((flattenParams p).headD 0)), ())⟩

noncomputable def coinLinear (s : Fin 2) : (Fin 1 → ℝ) →ₗ[ℝ] ℝ where
  toFun p := coinLog p s
  map_add' p q := by simp [coinLog]; ring
  map_smul' a p := by simp [coinLog]; ring

theorem coin_step (θ : Fin 1 → ℝ) : MasterStep relaxKernel relaxMatrix coinLog θ tiltGrads (coinWorld (θ 0)) := by
  have hf : ∀ s : Fin 2, HasFDerivAt (fun p => coinLog p s)
      (LinearMap.toContinuousLinearMap (coinLinear s)) θ := fun s =>
    (LinearMap.toContinuousLinearMap (coinLinear s)).hasFDerivAt
  have hpos := Real.exp_pos (θ 0)
  refine ⟨relax_operator, relax_conserves, fun s => (hf s).differentiableAt, ?_, ?_, ?_, ?_⟩
  · intro s k
    rw [(hf s).fderiv]
    change _ = ((coinLog (Pi.single k 1) s : ℝ) : ℂ)
    fin_cases k
    fin_cases s <;> simp [coinLog, tiltGrads]
  · refine ⟨?_, ?_, ?_⟩ <;> simp [coinWorld, allSamples, coinLog]
  · have h : 0 ≤ 1 - Real.exp (θ 0) / (1 + Real.exp (θ 0)) := by
      rw [sub_nonneg, div_le_one (by positivity)]
      linarith
    have h' : 0 ≤ Real.exp (θ 0) / (1 + Real.exp (θ 0)) := by positivity
    intro x hx
    simp only [weighted, coinWorld, allSamples, List.flatten_cons, List.flatten_nil, List.append_nil, List.map_cons,
      List.map_nil, List.mem_cons, List.not_mem_nil, or_false] at hx
    rcases hx with rfl | rfl
    · exact h
    · exact h'
  · have h : weighted (coinWorld (θ 0)) = [(1 - Real.exp (θ 0) / (1 + Real.exp (θ 0)), 0),
        (Real.exp (θ 0) / (1 + Real.exp (θ 0)), 1)] := rfl
    intro s
    rw [h]
    unfold distribution
    rw [Fin.sum_univ_two]
    fin_cases s
    · simp [weightOf, coinLog]
      field_simp
      ring
    · simp [weightOf, coinLog]

theorem coin_sampled (θ : Fin 1 → ℝ) (p : Params) (sm : Unit) (t : ℝ) (hp : flattenParams p = List.ofFn θ) (joint)
    (sm' : Unit) (hm : coinEnv.measure p sm t = .ok (joint, sm')) :
    ∃ grads w, MasterStep relaxKernel relaxMatrix coinLog θ grads w ∧ 0 < List.length w ∧
      joint = tdvpJoint (relaxMatrix.map Complex.ofReal) (fun c => Complex.exp (coinLog θ c)) grads w := by
  have h0 : (flattenParams p).headD 0 = θ 0 := by
    rw [hp]
    simp
  have h1 : (fun _ : Fin 1 => θ 0) = θ := by
    funext i
    rw [Fin.fin_one_eq_zero i]
  refine ⟨tiltGrads, coinWorld (θ 0), coin_step θ, by simp [coinWorld], ?_⟩
  unfold coinEnv at hm
  simp only [h0, h1] at hm
  exact (congrArg Prod.fst (Except.ok.inj hm)).symm

theorem coin_good (θ : Fin 1 → ℝ) (p : Params) (t : ℝ) (hp : flattenParams p = List.ofFn θ) :
    ∃ joint, coinEnv.measure p () t = .ok (joint, ()) ∧
      (∀ rk ∈ joint, rk ≠ []) ∧ (∀ s ∈ allSamples joint, 0 ≤ s.1) ∧ 0 < List.length joint ∧
      specQS followCfg (allSamples joint) 0 0 ≠ 0 := by
  obtain ⟨grads, w, hst, hr, hj⟩ := coin_sampled θ p () t hp _ () rfl
  obtain ⟨h1, h2, h3⟩ := sampled_input (O := relaxMatrix.map Complex.ofReal)
    (ψ := fun c => Complex.exp (coinLog θ c)) (grads := grads) hst.samples hst.nonneg hr
  rw [← hj] at h1 h2 h3
  refine ⟨_, rfl, h1, h2, h3, ?_⟩
  have hpos := Real.exp_pos ((flattenParams p).headD 0)
  set a := Real.exp ((flattenParams p).headD 0) / (1 + Real.exp ((flattenParams p).headD 0)) with ha
  have hb : 1 - a = 1 / (1 + Real.exp ((flattenParams p).headD 0)) := by
    rw [ha]
    field_simp
    ring
  refine two_points followCfg rfl rfl a (by rw [ha]; positivity) (by rw [hb]; positivity)
    (fun _ => localValue (relaxMatrix.map Complex.ofReal)
      (fun c => Complex.exp (coinLog (fun _ => (flattenParams p).headD 0) c)) 0)
    (fun _ => localValue (relaxMatrix.map Complex.ofReal)
      (fun c => Complex.exp (coinLog (fun _ => (flattenParams p).headD 0) c)) 1) _ ?_
  simp only [tdvpJoint, coinWorld, World.map, allSamples, tiltGrads, ← ha]
  simp

/-- Case for `c115_distribution` and `c115_adaptive_distribution`: relaxation of a distribution. -/
example (y : Fin 1 → ℝ) (t dt : ℝ) : ∃ tol > 0, ∃ fine next x' coarse last x₄,
    adapt (evaluate coinEnv followCfg 0) (fun w => sDotNorm w.2.1.eqn) ⟨dt, tol, 1⟩ t y 1 dt
      (nqsRun (.real [[0]]) [.eval], {}, ()) = some (fine, dt, next, x') ∧
    LastAttempt (evaluate coinEnv followCfg 0) t y dt coarse fine last x₄ x' ∧
    fisherLength (distribution (coinLog last)) (probVelocity coinLog last (fine - coarse)) ≤ tol := by
  obtain ⟨tol, htol, fine, next, x', h⟩ := adapt_accepts (evaluate coinEnv followCfg 0) (fun w => sDotNorm w.2.1.eqn)
    (fun x => x.1 = nqsRun (.real [[0]]) [.eval])
    (fun y t k s hs => one_evaluates rfl (someEigh_correct _ rfl) (by norm_num [followCfg]) (by norm_num [followCfg])
      (by norm_num [followCfg]) coin_good y t k s hs) t y dt 1 (nqsRun (.real [[0]]) [.eval], {}, ()) rfl
  obtain ⟨coarse, last, x₄, h1, h2⟩ := c115_adaptive_distribution coin_sampled followCfg (.real [[0]])
    (by simp [flattenParams]) ⟨dt, tol, 1⟩ htol t y 1 dt _ ⟨_, rfl, rfl, rfl⟩ h
  exact ⟨tol, htol, fine, next, x', coarse, last, x₄, h, h1, h2⟩

/-- Case for `c115_zero`: a parameter that only changes the norm, and one that changes the state. -/
example (θ : Fin 1 → ℝ) : speedAt (fun (θ : Fin 1 → ℝ) (_ : Fin 2) => (θ 0 : ℂ)) θ (fun _ => 1) = 0 ∧
    speedAt tiltLog θ (fun _ => 1) ≠ 0 := by
  have hd : ∀ (a c : ℂ) , deriv (fun τ : ℝ => Complex.exp (a + τ * c)) 0 = c * Complex.exp a := by
    intro a c
    have h1 : HasDerivAt (fun τ : ℝ => a + (τ : ℂ) * c) c 0 := by
      have := ((Complex.ofRealCLM.hasDerivAt (x := (0 : ℝ))).mul_const c).const_add a
      simpa using this
    have h2 := h1.cexp.deriv
    simpa [mul_comm] using h2
  constructor
  · refine (c115_zero _ _ _).mpr ⟨1, fun s => ?_⟩
    have := hd (θ 0) 1
    simpa [stateVelocity] using this
  · intro h
    obtain ⟨z, hz⟩ := (c115_zero _ _ _).mp h
    have e : ∀ s : Fin 2, stateVelocity tiltLog θ (fun _ => 1) s = s.val * Complex.exp (tiltLog θ s) := by
      intro s
      have := hd (tiltLog θ s) s.val
      rw [← this]
      unfold stateVelocity
      congr 1
      funext τ
      fin_cases s <;> simp [tiltLog]
    have h0 := (e 0).symm.trans (hz 0)
    have h1 := (e 1).symm.trans (hz 1)
    have hz0 : z = 0 := by simpa [tiltLog, eq_comm] using h0
    rw [hz0] at h1
    simp at h1

end cases

end JVMC
