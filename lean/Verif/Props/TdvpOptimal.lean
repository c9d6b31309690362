import Verif.Lemmas.TdvpOptimal
import Verif.Props.Variational
import Verif.Spec.Projection

/-!
# C88 — TDVP updates are the best velocities

`tdvpDistance l x u` is the distance of the evolution with velocities `u` from the exact one, computed
from the samples `l`; `offRay` is the same distance computed from the wave function.
-/

namespace JVMC

open Spec Matrix

variable {n : ℕ}

/-- C88: with `makeReal="real"` the update never leaves the state further from the exact evolution
than not moving at all, for every prefactor, regularisation, diagonal shift and signal-to-noise
damping. -/
theorem c88_never_worse (cfg : TdvpCfg n) (heigh : EighCorrect cfg) (hq : cfg.makeReal ≠ "imag")
    (hs : 0 ≤ cfg.diagonalShift) (r : ℕ) (joint : World (ℝ × (Fin 1 → ℂ) × (Fin (n + 1) → ℂ)))
    (E : SObs (Fin 1)) (G : SObs (Fin (n + 1))) (hi : TdvpInput joint r E G) (at₀ at₁ : TdvpAttrs n)
    (res : SolveRes n) (hres : tdvpSolve cfg r (some (E, G)) at₀ = .ok (res, at₁))
    (u : Fin (n + 1) → ℝ) (hu : res.update = some u) :
    tdvpDistance (allSamples joint) cfg.rhsPrefactor u
      ≤ tdvpDistance (allSamples joint) cfg.rhsPrefactor 0 := by
  obtain ⟨snr, p, _, hp, hup, _⟩ := solve_pinv cfg r joint E G hi at₀ at₁ res hres u hu
  have h0 := pinv_nonneg cfg heigh hq hs _ hi.weights snr _ p hp
  have h1 := pinv_le_one cfg _ snr _ p hp
  have := distance_min cfg heigh hq hs _ hi.weights p 1 zero_le_one le_rfl
    (fun k hk => ⟨by rw [sub_self]; exact mul_nonneg (h0 k) hk.le, h1 k hk⟩) u hup 0
  simpa using this

/-- The spectrum recorded by `solve`. -/
theorem solve_spectrum (cfg : TdvpCfg n) (r : ℕ) (joint : World (ℝ × (Fin 1 → ℂ) × (Fin (n + 1) → ℂ)))
    (E : SObs (Fin 1)) (G : SObs (Fin (n + 1))) (hi : TdvpInput joint r E G) (at₀ at₁ : TdvpAttrs n)
    (res : SolveRes n) (hres : tdvpSolve cfg r (some (E, G)) at₀ = .ok (res, at₁)) :
    at₁.spectrum = some (some (tdvpEigenbasis cfg (specQS cfg (allSamples joint))
      (specQF cfg (allSamples joint)))) := by
  obtain ⟨snr, hsnr, heq⟩ := tdvpSolve_eq cfg r joint hi.devices hi.weights hi.rank E G hi.data
  rw [heq at₀] at hres
  cases hl : pinvLoop cfg (tdvpEigenbasis cfg (specQS cfg (allSamples joint))
      (specQF cfg (allSamples joint))) snr (specQF cfg (allSamples joint)) with
  | none => rw [hl] at hres; cases hres
  | some s =>
    rw [hl] at hres
    dsimp only at hres
    cases hu : tdvpUpdate cfg (tdvpEigenbasis cfg (specQS cfg (allSamples joint))
        (specQF cfg (allSamples joint))) s with
    | error e => rw [hu] at hres; cases hres
    | ok res' =>
      rw [hu] at hres
      simp only [Except.ok.injEq, Prod.mk.injEq] at hres
      obtain ⟨_, rfl⟩ := hres
      rfl

/-- The factors `p_k ev_k` of the pseudo-inverse in `c45_formula_snr`. -/
theorem pinv_factor (e m c κ b β : ℝ) (hκ : 1e-14 < κ) (hm : m ≠ 0) (he : κ ≤ |e| / |m|) (hc : 0 < c)
    (h0 : 0 ≤ β) (hb : β ≤ b) (hb1 : b ≤ 1) :
    β / (1 + (c / κ) ^ 6) ≤ (if |e| / |m| > 1e-14 then 1 / e else 0)
        * (1 / (1 + (c / (|e| / |m|)) ^ 6)) * b * e ∧
      (if |e| / |m| > 1e-14 then 1 / e else 0) * (1 / (1 + (c / (|e| / |m|)) ^ 6)) * b * e ≤ 1 := by
  have hpos : 0 < κ := lt_trans (by norm_num) hκ
  have hr : 0 < |e| / |m| := lt_of_lt_of_le hpos he
  have hne : e ≠ 0 := by
    intro h
    rw [h] at hr
    simp at hr
  rw [if_pos (lt_of_lt_of_le hκ he)]
  have e1 : 1 / e * (1 / (1 + (c / (|e| / |m|)) ^ 6)) * b * e = b / (1 + (c / (|e| / |m|)) ^ 6) := by
    field_simp
  rw [e1]
  have hle : (c / (|e| / |m|)) ^ 6 ≤ (c / κ) ^ 6 := by
    apply pow_le_pow_left₀ (by positivity)
    exact div_le_div_of_nonneg_left hc.le hpos he
  have hd : 0 ≤ (c / (|e| / |m|)) ^ 6 := by positivity
  constructor
  · apply div_le_div₀ (le_trans h0 hb) hb (by positivity)
    linarith
  · rw [div_le_one (by positivity)]
    linarith

/-- The number by which the regularised update may miss the best one: `β / (1 + (cutoff / κ)^6)`
is the least factor with which an inverse eigenvalue is damped. -/
noncomputable def missOf (β cutoff κ : ℝ) : ℝ := 1 - β / (1 + (cutoff / κ) ^ 6)

/-- The update as a pseudo-inverse whose factors lie in `[1 - δ, 1]`. -/
theorem solve_factors (cfg : TdvpCfg n) (r : ℕ)
    (joint : World (ℝ × (Fin 1 → ℂ) × (Fin (n + 1) → ℂ)))
    (E : SObs (Fin 1)) (G : SObs (Fin (n + 1))) (hi : TdvpInput joint r E G)
    (at₀ at₁ at₂ : TdvpAttrs n) (S : Matrix (Fin (n + 1)) (Fin (n + 1)) ℂ) (F : Fin (n + 1) → ℂ)
    (hSF : getTdvpEquation cfg r (some (E, G)) at₀ = .ok (some (S, F), at₂))
    (res : SolveRes n) (hres : tdvpSolve cfg r (some (E, G)) at₀ = .ok (res, at₁))
    (ev : Fin (n + 1) → ℝ) (V : Matrix (Fin (n + 1)) (Fin (n + 1)) ℂ) (hV : cfg.eigh S = (ev, V))
    (hmax : ev (Fin.last n) ≠ 0) (hc : 0 < cfg.pinvCutoff) (κ β : ℝ) (hκ : 1e-14 < κ)
    (hβ : 0 ≤ β) (hβ' : β ≤ 1)
    (damping : Fin (n + 1) → ℝ)
    (hsnr : cfg.isExact = true ∨ ∃ snr, at₁.snr = some snr ∧
      ∀ k, SnrDamping cfg.snrTol (snr k) (damping k) ∧ β ≤ damping k) :
    S = specQS cfg (allSamples joint) ∧ F = specQF cfg (allSamples joint) ∧
    0 ≤ missOf β res.cutoff κ ∧ missOf β res.cutoff κ ≤ 1 ∧
    ∃ p : Fin (n + 1) → ℝ,
      res.update = some (fun i => ((V *ᵥ fun k => (p k : ℂ) * (Vᴴ *ᵥ F) k) i).re) ∧
      ∀ k, κ ≤ |ev k| / |ev (Fin.last n)| → 1 - missOf β res.cutoff κ ≤ p k * ev k ∧ p k * ev k ≤ 1 := by
  have hu := c45_formula_snr cfg r joint E G hi at₀ at₁ at₂ S F hSF res hres ev V hV hmax hc damping
    (hsnr.imp_right fun ⟨snr, h1, h2⟩ => ⟨snr, h1, fun k => (h2 k).1⟩)
  have hcut : 0 < res.cutoff := lt_of_lt_of_le hc (c45_exit cfg r joint E G hi at₀ at₁ res hres).1
  have hpos : 0 < κ := lt_trans (by norm_num) hκ
  rw [getTdvpEquation_eq cfg r joint hi.devices hi.weights hi.rank E G hi.data at₀] at hSF
  simp only [Except.ok.injEq, Prod.mk.injEq, Option.some.injEq] at hSF
  obtain ⟨⟨rfl, rfl⟩, _⟩ := hSF
  set b : Fin (n + 1) → ℝ := fun k => if cfg.isExact then 1 else damping k with hb
  have hbb : ∀ k, β ≤ b k ∧ b k ≤ 1 := by
    intro k
    rw [hb]
    beta_reduce
    split
    · exact ⟨hβ', le_rfl⟩
    · rename_i hne
      rcases hsnr with h | ⟨snr, _, h⟩
      · exact absurd h hne
      · refine ⟨(h k).2, ?_⟩
        rcases (h k).1 with ⟨_, h2⟩ | ⟨_, _, h2⟩ | ⟨x, _, _, h2⟩
        · exact h2.le
        · rw [h2]; exact zero_le_one
        · rw [h2, div_le_one (by positivity)]
          have : 0 ≤ (cfg.snrTol / x) ^ 6 := by positivity
          linarith
  have hfac : β / (1 + (res.cutoff / κ) ^ 6) ≤ 1 := by
    rw [div_le_one (by positivity)]
    have : 0 ≤ (res.cutoff / κ) ^ 6 := by positivity
    linarith
  have hfac' : 0 ≤ β / (1 + (res.cutoff / κ) ^ 6) := by positivity
  refine ⟨rfl, rfl, by unfold missOf; linarith, by unfold missOf; linarith, fun k =>
    (if |ev k| / |ev (Fin.last n)| > 1e-14 then 1 / ev k else 0)
      * (1 / (1 + (res.cutoff / (|ev k| / |ev (Fin.last n)|)) ^ 6)) * b k, ?_, fun k hk => ?_⟩
  · rw [hu]
    congr 1
    funext i
    congr 1
    unfold Matrix.mulVec dotProduct
    refine Finset.sum_congr rfl fun k _ => ?_
    beta_reduce
    rw [← mul_assoc]
    rfl
  · have := pinv_factor (ev k) (ev (Fin.last n)) res.cutoff κ (b k) β hκ hmax hk hcut hβ
      (hbb k).1 (hbb k).2
    unfold missOf
    rw [sub_sub_cancel]
    exact this

/-- C88: without diagonal shift and with `makeReal="real"`, if the eigenvalues other than zero are at
least `κ > 1e-14` of the largest, the update is a number and, up to `δ²` of the distance when
standing still, no velocities are closer to the exact evolution; `δ = 1 - β / (1 + (cutoff/κ)^6)`,
where `β` bounds the signal-to-noise damping from below (`β = 1` for exact samples). -/
theorem c88_optimal (cfg : TdvpCfg n) (heigh : EighCorrect cfg) (hq : cfg.makeReal ≠ "imag")
    (hs : 0 ≤ cfg.diagonalShift ∧ cfg.diagonalShift ≤ 1e-10) (r : ℕ)
    (joint : World (ℝ × (Fin 1 → ℂ) × (Fin (n + 1) → ℂ)))
    (E : SObs (Fin 1)) (G : SObs (Fin (n + 1))) (hi : TdvpInput joint r E G)
    (at₀ at₁ at₂ : TdvpAttrs n) (S : Matrix (Fin (n + 1)) (Fin (n + 1)) ℂ) (F : Fin (n + 1) → ℂ)
    (hSF : getTdvpEquation cfg r (some (E, G)) at₀ = .ok (some (S, F), at₂))
    (res : SolveRes n) (hres : tdvpSolve cfg r (some (E, G)) at₀ = .ok (res, at₁))
    (ev : Fin (n + 1) → ℝ) (V : Matrix (Fin (n + 1)) (Fin (n + 1)) ℂ) (hV : cfg.eigh S = (ev, V))
    (hmax : ev (Fin.last n) ≠ 0) (hc : 0 < cfg.pinvCutoff) (κ β : ℝ) (hκ : 1e-14 < κ)
    (hgap : ∀ k, ev k = 0 ∨ κ ≤ |ev k| / |ev (Fin.last n)|) (hβ : 0 ≤ β) (hβ' : β ≤ 1)
    (damping : Fin (n + 1) → ℝ)
    (hsnr : cfg.isExact = true ∨ ∃ snr, at₁.snr = some snr ∧
      ∀ k, SnrDamping cfg.snrTol (snr k) (damping k) ∧ β ≤ damping k) :
    ∃ u, res.update = some u ∧ ∀ v : Fin (n + 1) → ℝ,
      tdvpDistance (allSamples joint) cfg.rhsPrefactor u
        ≤ (1 - missOf β res.cutoff κ ^ 2) * tdvpDistance (allSamples joint) cfg.rhsPrefactor v
          + missOf β res.cutoff κ ^ 2 * tdvpDistance (allSamples joint) cfg.rhsPrefactor 0 := by
  obtain ⟨hS, hF, hm0, hm1, p, hu, hp⟩ := solve_factors cfg r joint E G hi at₀ at₁ at₂ S F hSF res hres
    ev V hV hmax hc κ β hκ hβ hβ' damping hsnr
  refine ⟨_, hu, fun v => ?_⟩
  rw [hS] at hV
  rw [hF]
  have hm := distance_min cfg heigh hq hs.1 (allSamples joint) hi.weights p (missOf β res.cutoff κ)
    hm0 hm1
    (by
      intro k hk
      rw [hV] at hk ⊢
      exact hp k ((hgap k).resolve_left hk.ne'))
    _ rfl (fun i => (v i : ℂ))
  rw [hV] at hm
  have hd := distance_quadForm cfg hq (allSamples joint) v
  have hS' : specQS cfg (allSamples joint) = Matrix.of fun i j => cfg.q (specS (allSamples joint) i j) := by
    unfold specQS
    rw [if_neg (not_lt.mpr hs.2)]
  rw [hS'] at hm
  have hq' : quadForm (Matrix.of fun i j => cfg.q (specS (allSamples joint) i j))
      (specQF cfg (allSamples joint)) (fun i => (v i : ℂ))
      = tdvpDistance (allSamples joint) cfg.rhsPrefactor v
        - tdvpDistance (allSamples joint) cfg.rhsPrefactor 0 := by
    rw [hd]; ring
  rw [hq'] at hm
  refine hm.trans (le_of_eq ?_)
  ring

/-- C88, both modes: if some velocities `v` follow the exact evolution of the samples and no
eigenvalue is below `κ > 1e-14` of the largest, the update is `v` up to `δ ‖v‖`. -/
theorem c88_exact_velocity (cfg : TdvpCfg n) (heigh : EighCorrect cfg)
    (hs : cfg.diagonalShift ≤ 1e-10) (r : ℕ)
    (joint : World (ℝ × (Fin 1 → ℂ) × (Fin (n + 1) → ℂ)))
    (E : SObs (Fin 1)) (G : SObs (Fin (n + 1))) (hi : TdvpInput joint r E G)
    (at₀ at₁ at₂ : TdvpAttrs n) (S : Matrix (Fin (n + 1)) (Fin (n + 1)) ℂ) (F : Fin (n + 1) → ℂ)
    (hSF : getTdvpEquation cfg r (some (E, G)) at₀ = .ok (some (S, F), at₂))
    (res : SolveRes n) (hres : tdvpSolve cfg r (some (E, G)) at₀ = .ok (res, at₁))
    (ev : Fin (n + 1) → ℝ) (V : Matrix (Fin (n + 1)) (Fin (n + 1)) ℂ) (hV : cfg.eigh S = (ev, V))
    (hmax : ev (Fin.last n) ≠ 0) (hc : 0 < cfg.pinvCutoff) (κ β : ℝ) (hκ : 1e-14 < κ)
    (hgap : ∀ k, κ ≤ |ev k| / |ev (Fin.last n)|) (hβ : 0 ≤ β) (hβ' : β ≤ 1)
    (damping : Fin (n + 1) → ℝ)
    (hsnr : cfg.isExact = true ∨ ∃ snr, at₁.snr = some snr ∧
      ∀ k, SnrDamping cfg.snrTol (snr k) (damping k) ∧ β ≤ damping k)
    (v : Fin (n + 1) → ℝ) (hv : tdvpDistance (allSamples joint) cfg.rhsPrefactor v = 0) :
    ∃ u, res.update = some u ∧
      euclid (fun i => ((u i - v i : ℝ) : ℂ)) ≤ missOf β res.cutoff κ * euclid fun i => (v i : ℂ) := by
  obtain ⟨hS, hF, hm0, _, p, hu, hp⟩ := solve_factors cfg r joint E G hi at₀ at₁ at₂ S F hSF res hres
    ev V hV hmax hc κ β hκ hβ hβ' damping hsnr
  refine ⟨_, hu, ?_⟩
  have hE := heigh _ (specQS_hermitian cfg (allSamples joint))
  rw [← hS, hV] at hE
  have hclose := pinv_close _ V ev p hE v (missOf β res.cutoff κ) hm0 (by
    intro k
    obtain ⟨h1, h2⟩ := hp k (hgap k)
    rw [abs_of_nonneg (by linarith)]
    linarith)
  rw [hS, distance_zero_solves cfg hs _ hi.weights v hv, ← hF] at hclose
  exact hclose

/-! ## The same for wave functions -/

section

variable {C : Type} [Fintype C] [DecidableEq C] {kernel : C → List (C × ℂ)} {O : Matrix C C ℂ}

omit [DecidableEq C] in
/-- The component orthogonal to `ψ` is what remains after subtracting the best multiple of `ψ`. -/
theorem c88_offRay_least (ψ φ : C → ℂ) (hψ : 0 < norm2 ψ) (c : ℂ) :
    offRay ψ φ ≤ norm2 (fun s => φ s - c * ψ s) / norm2 ψ := by
  unfold offRay
  apply div_le_div_of_nonneg_right _ hψ.le
  set a := (∑ c, (starRingEnd ℂ) (ψ c) * φ c) / (norm2 ψ : ℂ) with ha
  have hZ : (norm2 ψ : ℂ) ≠ 0 := by exact_mod_cast hψ.ne'
  have horth : ∑ s, (starRingEnd ℂ) (ψ s) * (φ s - a * ψ s) = 0 := by
    have h1 : ∑ s, (starRingEnd ℂ) (ψ s) * (φ s - a * ψ s)
        = ∑ s, (starRingEnd ℂ) (ψ s) * φ s - a * (norm2 ψ : ℂ) := by
      unfold norm2
      rw [Complex.ofReal_sum, Finset.mul_sum, ← Finset.sum_sub_distrib]
      refine Finset.sum_congr rfl fun s _ => ?_
      rw [Complex.normSq_eq_conj_mul_self]
      ring
    rw [h1, ha, div_mul_cancel₀ _ hZ, sub_self]
  have hexp : ∀ s, Complex.normSq (φ s - c * ψ s) = Complex.normSq (φ s - a * ψ s)
      + Complex.normSq (a - c) * Complex.normSq (ψ s)
      + 2 * ((starRingEnd ℂ) (a - c) * ((starRingEnd ℂ) (ψ s) * (φ s - a * ψ s))).re := by
    intro s
    have : φ s - c * ψ s = (φ s - a * ψ s) + (a - c) * ψ s := by ring
    rw [this, Complex.normSq_add, map_mul, map_mul, ← mul_assoc]
    congr 3
    ring
  have : norm2 (fun s => φ s - c * ψ s) = norm2 (fun s => φ s - a * ψ s)
      + Complex.normSq (a - c) * norm2 ψ := by
    unfold norm2
    simp only [hexp, Finset.sum_add_distrib, ← Finset.mul_sum, ← Complex.re_sum]
    rw [horth]
    simp
  rw [this]
  have : 0 ≤ Complex.normSq (a - c) * norm2 ψ := mul_nonneg (Complex.normSq_nonneg _) hψ.le
  linarith

theorem stateVelocity_eq {logPsi : (Fin (n + 1) → ℝ) → C → ℂ} {θ : Fin (n + 1) → ℝ}
    {grads : C → Fin (n + 1) → ℂ} {w : World (C × ℂ × ℝ)}
    (hst : TdvpStep kernel O logPsi θ grads w) (v : Fin (n + 1) → ℝ) (s : C) :
    stateVelocity logPsi θ v s = Complex.exp (logPsi θ s) * ∑ k, (v k : ℂ) * grads s k := by
  have h1 : HasDerivAt (fun τ : ℝ => θ + τ • v) v 0 := by
    have := ((hasDerivAt_id (0 : ℝ)).smul_const v).const_add θ
    simpa using this
  have h2 : HasFDerivAt (fun p => logPsi p s) (fderiv ℝ (fun p => logPsi p s) θ)
      (θ + (0 : ℝ) • v) := by
    rw [zero_smul, add_zero]
    exact (hst.differentiable s).hasFDerivAt
  have h3 := (h2.comp_hasDerivAt (0 : ℝ) h1).cexp
  have h4 : deriv (fun τ : ℝ => Complex.exp (logPsi (θ + τ • v) s)) 0 = _ := h3.deriv
  unfold stateVelocity
  rw [h4]
  simp only [Function.comp_apply, zero_smul, add_zero]
  congr 1
  have hv : v = ∑ k, v k • (Pi.single k (1 : ℝ) : Fin (n + 1) → ℝ) := by
    funext i
    simp [Finset.sum_apply, Pi.single_apply]
  conv_lhs => rw [hv]
  rw [map_sum]
  refine Finset.sum_congr rfl fun k _ => ?_
  rw [map_smul, hst.gradients s k]
  simp

/-- With exactly weighted samples the distance computed from the samples is the distance of the state
velocities up to norm and phase. -/
theorem distance_offRay [Nonempty C] {logPsi : (Fin (n + 1) → ℝ) → C → ℂ} {θ : Fin (n + 1) → ℝ}
    {grads : C → Fin (n + 1) → ℂ} {w : World (C × ℂ × ℝ)}
    (hst : TdvpStep kernel O logPsi θ grads w) (x : ℂ) (v : Fin (n + 1) → ℝ) :
    tdvpDistance (allSamples (tdvpJoint O (fun c => Complex.exp (logPsi θ c)) grads w)) x v
      = offRay (fun c => Complex.exp (logPsi θ c)) fun s => stateVelocity logPsi θ v s
        + x * (O *ᵥ fun c => Complex.exp (logPsi θ c)) s := by
  simp only [stateVelocity_eq hst v]
  have hb := hst.weights
  set ψ : C → ℂ := fun c => Complex.exp (logPsi θ c) with hψ
  have hne : ∀ s, ψ s ≠ 0 := fun s => Complex.exp_ne_zero _
  obtain ⟨s₀⟩ := ‹Nonempty C›
  have hZ : 0 < norm2 ψ := norm2_pos ψ s₀ (hne s₀)
  have hZc : (norm2 ψ : ℂ) ≠ 0 := by exact_mod_cast hZ.ne'
  have m1 := fun k => wMean_born w ψ hb grads k
  have m2 := wMean_born w ψ hb (fun s (_ : Fin 1) => localValue O ψ s) 0
  unfold tdvpDistance tdvpJoint
  rw [allSamples_wmap]
  simp only [allSamples_wmap] at m1 m2
  simp only [List.map_map, Function.comp_def] at m1 m2 ⊢
  simp only [m1, m2]
  set h : C → ℂ := fun s => ∑ k, (v k : ℂ) * grads s k + x * localValue O ψ s with hh
  set P : C → ℂ := fun s => ((Complex.normSq (ψ s) / norm2 ψ : ℝ) : ℂ) with hP
  have hcen : ∀ s, ∑ k, (v k : ℂ) * (grads s k - ∑ s', P s' * grads s' k)
      + x * (localValue O ψ s - ∑ s', P s' * localValue O ψ s') = h s - ∑ s', P s' * h s' := by
    intro s
    have e1 : ∑ s', P s' * h s' = ∑ k, (v k : ℂ) * ∑ s', P s' * grads s' k
        + x * ∑ s', P s' * localValue O ψ s' := by
      simp only [hh, mul_add, Finset.sum_add_distrib, Finset.mul_sum]
      rw [Finset.sum_comm]
      congr 1
      · exact Finset.sum_congr rfl fun k _ => Finset.sum_congr rfl fun s' _ => by ring
      · exact Finset.sum_congr rfl fun s' _ => by ring
    rw [e1, hh]
    simp only [mul_sub, Finset.sum_sub_distrib]
    ring
  have hsum := sum_weighted_real (weighted w) fun s => Complex.normSq (h s - ∑ s', P s' * h s')
  simp only [hb.born] at hsum
  have hφ : ∀ s, Complex.exp (logPsi θ s) * ∑ k, (v k : ℂ) * grads s k + x * (O *ᵥ ψ) s = ψ s * h s := by
    intro s
    have : (O *ᵥ ψ) s = ψ s * localValue O ψ s := by
      unfold localValue
      rw [mul_div_cancel₀ _ (hne s)]
    rw [this, hh]
    change ψ s * _ + _ = _
    ring
  have hmean : (∑ c, (starRingEnd ℂ) (ψ c) * (ψ c * h c)) / (norm2 ψ : ℂ) = ∑ s', P s' * h s' := by
    rw [Finset.sum_div]
    refine Finset.sum_congr rfl fun c _ => ?_
    rw [hP]
    push_cast
    rw [Complex.normSq_eq_conj_mul_self]
    ring
  unfold offRay
  simp only [hφ, hmean]
  have hR : norm2 (fun s => ψ s * h s - (∑ s', P s' * h s') * ψ s) / norm2 ψ
      = ∑ s, Complex.normSq (ψ s) / norm2 ψ * Complex.normSq (h s - ∑ s', P s' * h s') := by
    unfold norm2
    rw [Finset.sum_div]
    refine Finset.sum_congr rfl fun s _ => ?_
    beta_reduce
    rw [show ψ s * h s - (∑ s', P s' * h s') * ψ s = ψ s * (h s - ∑ s', P s' * h s') by ring, map_mul]
    ring
  rw [hR, ← hsum]
  unfold weighted
  rw [List.map_map]
  congr 1
  apply List.map_congr_left
  intro y _
  rw [hcen y.1]
  rfl

omit [DecidableEq C] in
/-- Standing still misses the exact evolution by the spread of the generator. -/
theorem offRay_generator (ψ : C → ℂ) (hψ : 0 < norm2 ψ) (x : ℂ) :
    offRay ψ (fun s => x * (O *ᵥ ψ) s) = Complex.normSq x * spread O ψ := by
  have hZc : (norm2 ψ : ℂ) ≠ 0 := by exact_mod_cast hψ.ne'
  unfold offRay spread
  have h1 : (∑ c, (starRingEnd ℂ) (ψ c) * (x * (O *ᵥ ψ) c)) / (norm2 ψ : ℂ) = x * expect O ψ := by
    unfold expect
    rw [← mul_div_assoc, Finset.mul_sum]
    congr 1
    exact Finset.sum_congr rfl fun c _ => by ring
  rw [h1]
  set m := expect O ψ with hm
  have h2 : ∑ c, (starRingEnd ℂ) (ψ c) * (O *ᵥ ψ) c = m * (norm2 ψ : ℂ) := by
    rw [hm, expect, div_mul_cancel₀ _ hZc]
  have hpt : ∀ s, Complex.normSq (x * (O *ᵥ ψ) s - x * m * ψ s)
      = Complex.normSq x * (Complex.normSq ((O *ᵥ ψ) s) + Complex.normSq m * Complex.normSq (ψ s)
        - 2 * ((starRingEnd ℂ) m * ((starRingEnd ℂ) (ψ s) * (O *ᵥ ψ) s)).re) := by
    intro s
    rw [show x * (O *ᵥ ψ) s - x * m * ψ s = x * ((O *ᵥ ψ) s - m * ψ s) by ring, map_mul,
      Complex.normSq_sub, map_mul, map_mul, ← mul_assoc]
    congr 4
    ring
  have h3 : norm2 (fun s => x * (O *ᵥ ψ) s - x * m * ψ s)
      = Complex.normSq x * (norm2 (O *ᵥ ψ) - Complex.normSq m * norm2 ψ) := by
    unfold norm2
    simp only [hpt, ← Finset.mul_sum, Finset.sum_add_distrib, Finset.sum_sub_distrib, ← Complex.re_sum]
    rw [h2]
    have : ((starRingEnd ℂ) m * (m * (norm2 ψ : ℂ))).re = Complex.normSq m * norm2 ψ := by
      rw [← mul_assoc, ← Complex.normSq_eq_conj_mul_self, ← Complex.ofReal_mul, Complex.ofReal_re]
    rw [this]
    unfold norm2
    ring
  rw [h3, mul_div_assoc, sub_div, mul_div_cancel_right₀ _ hψ.ne']

/-- C88 for wave functions: with exactly weighted samples, without diagonal shift and with
`makeReal="real"`, if the eigenvalues other than zero are at least `κ > 1e-14` of the largest, then
for all velocities `v` of the parameters: up to norm and phase the state moving with the update is at
least as close to the exact evolution `dψ/dt = - x O ψ` as the state moving with `v`, up to `δ²` times
the spread of `O`. -/
theorem c88_state [Nonempty C] (logPsi : (Fin (n + 1) → ℝ) → C → ℂ)
    (θ : Fin (n + 1) → ℝ) (grads : C → Fin (n + 1) → ℂ) (w : World (C × ℂ × ℝ))
    (hst : TdvpStep kernel O logPsi θ grads w) (cfg : TdvpCfg n) (heigh : EighCorrect cfg)
    (hq : cfg.makeReal ≠ "imag") (hs : 0 ≤ cfg.diagonalShift ∧ cfg.diagonalShift ≤ 1e-10)
    (hex : cfg.isExact = true) (hc : 0 < cfg.pinvCutoff) (zeroCfg : C) (b : ℤ) (r : ℕ)
    (hr : r < List.length w) (at₀ at₁ : TdvpAttrs n) (res : SolveRes n)
    (hres : tdvpSolveSamples cfg r kernel ⟨logPsi θ, true⟩ zeroCfg b grads w at₀ = .ok (res, at₁))
    (sp : TdvpSpectrum n) (hsp : at₁.spectrum = some (some sp)) (hmax : sp.ev (Fin.last n) ≠ 0)
    (κ : ℝ) (hκ : 1e-14 < κ) (hgap : ∀ k, sp.ev k = 0 ∨ κ ≤ |sp.ev k| / |sp.ev (Fin.last n)|) :
    ∃ u, res.update = some u ∧ ∀ v : Fin (n + 1) → ℝ,
      offRay (fun c => Complex.exp (logPsi θ c)) (fun s => stateVelocity logPsi θ u s
          + cfg.rhsPrefactor * (O *ᵥ fun c => Complex.exp (logPsi θ c)) s)
        ≤ (1 - missOf 1 res.cutoff κ ^ 2) * offRay (fun c => Complex.exp (logPsi θ c))
            (fun s => stateVelocity logPsi θ v s
              + cfg.rhsPrefactor * (O *ᵥ fun c => Complex.exp (logPsi θ c)) s)
          + missOf 1 res.cutoff κ ^ 2
            * (Complex.normSq cfg.rhsPrefactor * spread O fun c => Complex.exp (logPsi θ c)) := by
  obtain ⟨E, G, hi, heq⟩ := solveSamples_input hst.operator ⟨logPsi θ, true⟩ rfl zeroCfg b w hst.samples
    hst.nonneg cfg r hr grads
  rw [heq] at hres
  have hSF := getTdvpEquation_eq cfg r _ hi.devices hi.weights hi.rank E G hi.data at₀
  have hspec : sp = tdvpEigenbasis cfg
      (specQS cfg (allSamples (tdvpJoint O (fun c => Complex.exp (logPsi θ c)) grads w)))
      (specQF cfg (allSamples (tdvpJoint O (fun c => Complex.exp (logPsi θ c)) grads w))) := by
    have h := solve_spectrum cfg r _ E G hi at₀ at₁ res hres
    rw [hsp] at h
    exact Option.some.inj (Option.some.inj h)
  have hev : cfg.eigh (specQS cfg (allSamples (tdvpJoint O (fun c => Complex.exp (logPsi θ c)) grads w)))
      = (sp.ev, sp.V) := by rw [hspec]; rfl
  obtain ⟨u, hu, hopt⟩ := c88_optimal cfg heigh hq hs r _ E G hi at₀ at₁ _ _ _ hSF res hres sp.ev sp.V hev
    hmax hc κ 1 hκ hgap zero_le_one le_rfl (fun _ => 1) (Or.inl hex)
  refine ⟨u, hu, fun v => ?_⟩
  have h := hopt v
  rw [distance_offRay hst, distance_offRay hst, distance_offRay hst] at h
  obtain ⟨s₀⟩ := ‹Nonempty C›
  have hZ := norm2_pos (fun c => Complex.exp (logPsi θ c)) s₀ (Complex.exp_ne_zero _)
  rw [← offRay_generator _ hZ]
  have h0 : (fun s => stateVelocity logPsi θ 0 s
      + cfg.rhsPrefactor * (O *ᵥ fun c => Complex.exp (logPsi θ c)) s)
      = fun s => cfg.rhsPrefactor * (O *ᵥ fun c => Complex.exp (logPsi θ c)) s := by
    funext s
    rw [stateVelocity_eq hst]
    simp
  rw [h0] at h
  exact h

end

/-! ## The reported error -/

/-- C88: with a prefactor of modulus one and the variance of the local energies recorded, the TDVP
error of the update is at most one. -/
theorem c88_error_le_one (cfg : TdvpCfg n) (heigh : EighCorrect cfg) (hq : cfg.makeReal ≠ "imag")
    (hs : 0 ≤ cfg.diagonalShift) (hx : Complex.normSq cfg.rhsPrefactor = 1) (r : ℕ)
    (joint : World (ℝ × (Fin 1 → ℂ) × (Fin (n + 1) → ℂ)))
    (E : SObs (Fin 1)) (G : SObs (Fin (n + 1))) (hi : TdvpInput joint r E G) (at₀ at₁ : TdvpAttrs n)
    (hvar : wVar ((allSamples joint).map fun s => (s.1, s.2.1)) 0 ≠ 0) (m : ℂ)
    (he : at₀.eloc0 = some (some (m, wVar ((allSamples joint).map fun s => (s.1, s.2.1)) 0)))
    (res : SolveRes n) (hres : tdvpSolve cfg r (some (E, G)) at₀ = .ok (res, at₁))
    (u : Fin (n + 1) → ℝ) (hu : res.update = some u) :
    ∃ d, getTdvpError at₁ res.update = .ok (some d) ∧ 0 ≤ d ∧ d ≤ 1 := by
  obtain ⟨eq, e, sp, snr, h1, h2⟩ := solve_attrs cfg r _ at₀ at₁ res hres
  have hat : at₁ = { at₀ with
        eqn := some e
        S := some (eq.map Prod.fst)
        spectrum := some sp
        snr := some snr } := by
    have := h2 at₀
    rw [hres] at this
    exact congrArg Prod.snd (Except.ok.inj this)
  obtain ⟨d, hd1, hd2, hd3⟩ := c46_error cfg hx r joint E G hi at₀ _ eq (h1 at₀) hvar m he u
  refine ⟨d, ?_, hd2, ?_⟩
  · rw [hu, hat]
    exact hd1
  · have hw := c88_never_worse cfg heigh hq hs r joint E G hi at₀ at₁ res hres u hu
    have h0 : tdvpDistance (allSamples joint) cfg.rhsPrefactor 0
        = wVar ((allSamples joint).map fun s => (s.1, s.2.1)) 0 := by
      have := distance_expand (allSamples joint) cfg.rhsPrefactor hx 0
      simpa using this
    have hv := wVar_nonneg ((allSamples joint).map fun s => (s.1, s.2.1)) (by
      intro s hs
      obtain ⟨t, ht, rfl⟩ := List.mem_map.mp hs
      exact hi.weights t ht) 0
    rw [hd3, div_le_one (lt_of_le_of_ne hv (Ne.symm hvar)), ← h0]
    exact hw

/-! ## Cases -/

/-- `solve` for one spin: a number, all eigenvalues `1/4`. -/
theorem spin_spectrum : ∃ res at₁ sp u, tdvpSolveSamples spinCfg 1 spinKernel ⟨spinLog 0, true⟩ 0 1
    (fun s => ![(s.val : ℂ), Complex.I * s.val]) spinWorld {} = .ok (res, at₁) ∧
      res.update = some u ∧ at₁.spectrum = some (some sp) ∧ ∀ k, sp.ev k = 1 / 4 := by
  obtain ⟨res, at₁, u, hres, hu, _⟩ := spin_update
  obtain ⟨E, G, hi, heq⟩ := solveSamples_input spin_operator ⟨spinLog 0, true⟩ rfl 0 1 spinWorld
    spin_samples spin_step.nonneg spinCfg 1 (by simp [spinWorld]) (fun s => ![(s.val : ℂ), Complex.I * s.val])
  have hres' := hres
  rw [heq] at hres'
  refine ⟨res, at₁, _, u, hres, hu, solve_spectrum spinCfg 1 _ E G hi _ at₁ res hres', fun k => ?_⟩
  rw [spin_joint]
  change (spinCfg.eigh _).1 k = _
  rw [spinQS]
  have hH : (Matrix.diagonal fun _ => (1 / 4 : ℂ) : Matrix (Fin 2) (Fin 2) ℂ).IsHermitian := by
    ext i j
    fin_cases i <;> fin_cases j <;> simp
  obtain ⟨hun, hdec, _⟩ := someEigh_correct spinCfg rfl _ hH
  set V := (spinCfg.eigh (Matrix.diagonal fun _ => (1 / 4 : ℂ))).2 with hV
  set ev := (spinCfg.eigh (Matrix.diagonal fun _ => (1 / 4 : ℂ))).1 with hev
  have h1 := congrArg (fun M => Vᴴ * M) hdec
  rw [← Matrix.mul_assoc, ← Matrix.mul_assoc, hun, Matrix.one_mul,
    show (Matrix.diagonal fun _ => (1 / 4 : ℂ) : Matrix (Fin 2) (Fin 2) ℂ) = (1 / 4 : ℂ) • 1 by
      ext i j; simp [Matrix.diagonal, Matrix.one_apply], Matrix.mul_smul, Matrix.smul_mul,
    Matrix.mul_one, hun] at h1
  have h2 := congrFun (congrFun h1 k) k
  simp only [Matrix.smul_apply, Matrix.one_apply_eq, Matrix.diagonal_apply_eq, smul_eq_mul,
    mul_one] at h2
  have h3 := congrArg Complex.re h2
  simp only [Complex.ofReal_re] at h3
  rw [← h3]
  norm_num

/-- Case for `c88_state`, with `κ = 1`. -/
example : ∃ res at₁ u, tdvpSolveSamples spinCfg 1 spinKernel ⟨spinLog 0, true⟩ 0 1
    (fun s => ![(s.val : ℂ), Complex.I * s.val]) spinWorld {} = .ok (res, at₁) ∧
      res.update = some u ∧ ∀ v : Fin 2 → ℝ,
      offRay (fun c => Complex.exp (spinLog 0 c)) (fun s => stateVelocity spinLog 0 u s
          + 1 * (spinMatrix *ᵥ fun c => Complex.exp (spinLog 0 c)) s)
        ≤ (1 - missOf 1 res.cutoff 1 ^ 2) * offRay (fun c => Complex.exp (spinLog 0 c))
            (fun s => stateVelocity spinLog 0 v s
              + 1 * (spinMatrix *ᵥ fun c => Complex.exp (spinLog 0 c)) s)
          + missOf 1 res.cutoff 1 ^ 2
            * (Complex.normSq 1 * spread spinMatrix fun c => Complex.exp (spinLog 0 c)) := by
  obtain ⟨res, at₁, sp, _, hres, _, hsp, hev⟩ := spin_spectrum
  obtain ⟨u, hu, h⟩ := c88_state spinLog 0 _ spinWorld spin_step spinCfg (someEigh_correct _ rfl)
    (by simp [spinCfg]) (by norm_num [spinCfg]) rfl (by norm_num [spinCfg]) 0 1 1 (by simp [spinWorld])
    {} at₁ res hres sp hsp (by rw [hev]; norm_num) 1 (by norm_num)
    (fun k => Or.inr (by rw [hev, hev]; norm_num))
  exact ⟨res, at₁, u, hres, hu, h⟩

/-- Case for `c88_exact_velocity`: local energies equal to the (only) gradient, so the exact velocity
is `-1`. -/
example : ∃ E G res at₁ u, TdvpInput oneJoint 0 E G ∧
    tdvpSolve oneCfg 0 (some (E, G)) {} = .ok (res, at₁) ∧ res.update = some u ∧
    euclid (fun i => ((u i - (-1) : ℝ) : ℂ)) ≤ missOf 1 res.cutoff 1 * euclid fun _ : Fin 1 => ((-1 : ℝ) : ℂ) := by
  obtain ⟨E, G, hi⟩ := one_input
  have heq := getTdvpEquation_eq oneCfg 0 oneJoint hi.devices hi.weights hi.rank E G hi.data {}
  rw [oneQS, oneQF] at heq
  have hE : EighCorrect oneCfg := someEigh_correct _ rfl
  obtain ⟨res, at₁, hres⟩ := c45_returns_partial oneCfg (by norm_num [oneCfg]) (by norm_num [oneCfg])
    (by norm_num [oneCfg]) 0 oneJoint E G hi {}
  have hH : (Matrix.of fun _ _ => (1 : ℂ) : Matrix (Fin 1) (Fin 1) ℂ).IsHermitian := by
    ext i j
    simp [Matrix.conjTranspose_apply]
  have hev : (oneCfg.eigh (Matrix.of fun _ _ => (1 : ℂ))).1 (Fin.last 0) ≠ 0 := by
    have h := hE _ hH
    intro h0
    have h1 := congrFun (congrFun h.decomp 0) 0
    have h2 := congrFun (congrFun h.unitary 0) 0
    rw [Matrix.mul_diagonal] at h1
    change (oneCfg.eigh (Matrix.of fun _ _ => (1 : ℂ))).1 0 = 0 at h0
    rw [h0] at h1
    simp [Matrix.mul_apply] at h1 h2
    rw [h1] at h2
    simp at h2
  obtain ⟨ev, V, hVe⟩ : ∃ ev V, oneCfg.eigh (Matrix.of fun _ _ => (1 : ℂ)) = (ev, V) := ⟨_, _, rfl⟩
  rw [hVe] at hev
  obtain ⟨u, hu, hle⟩ := c88_exact_velocity oneCfg hE (by norm_num [oneCfg]) 0 oneJoint E G hi {} at₁ _ _ _
    heq res hres ev V hVe hev (by norm_num [oneCfg]) 1 1 (by norm_num)
    (fun k => by
      have : k = Fin.last 0 := Fin.fin_one_eq_zero k
      rw [this, div_self (abs_ne_zero.mpr hev)]) zero_le_one le_rfl (fun _ => 1) (Or.inl rfl) (fun _ => -1)
    (by
      rw [oneSamples]
      simp [tdvpDistance, wMean, oneCfg])
  exact ⟨E, G, res, at₁, u, hi, hres, hu, hle⟩

end JVMC
