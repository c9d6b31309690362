import Mathlib.Analysis.Matrix.Spectrum
import Mathlib.Analysis.Complex.ExponentialBounds
import Verif.Spec.Spectrum
import Verif.Props.Accuracy
import Verif.Props.GroundState

/-!
# C98: reported energies and variances locate the energy levels
-/

namespace JVMC

open Spec Set Matrix

section levels

variable {C : Type} [Fintype C] [DecidableEq C] {O : Matrix C C ℂ}

omit [DecidableEq C] in
theorem toE_symm (hO : O.IsHermitian) (v w : C → ℂ) :
    inner ℂ (toE (O *ᵥ v)) (toE w) = inner ℂ (toE v) (toE (O *ᵥ w)) := by
  rw [toE_inner, toE_inner]
  have h2 : star (O *ᵥ v) ⬝ᵥ w = star v ⬝ᵥ (O *ᵥ w) := by
    rw [star_mulVec, hO.eq, dotProduct_mulVec]
  exact h2

/-- The eigenbasis, with amplitudes in it. -/
noncomputable def amplitude (hO : O.IsHermitian) (ψ : C → ℂ) (k : C) : ℂ :=
  inner ℂ (hO.eigenvectorBasis k) (toE ψ)

theorem eigen_level (hO : O.IsHermitian) (k : C) :
    Level O (hO.eigenvalues k) (hO.eigenvectorBasis k).ofLp := by
  constructor
  · intro h
    have h1 := hO.eigenvectorBasis.orthonormal.1 k
    have h2 : hO.eigenvectorBasis k = 0 := by
      ext s
      exact congrFun h s
    rw [h2, norm_zero] at h1
    exact zero_ne_one h1
  · intro s
    rw [hO.mulVec_eigenvectorBasis k]
    simp

theorem amplitude_apply (hO : O.IsHermitian) (ψ : C → ℂ) (k : C) :
    amplitude hO (O *ᵥ ψ) k = hO.eigenvalues k * amplitude hO ψ k := by
  unfold amplitude
  have h1 : hO.eigenvectorBasis k = toE (hO.eigenvectorBasis k).ofLp := rfl
  rw [h1, ← toE_symm hO, toE_inner, toE_inner, Finset.mul_sum]
  refine Finset.sum_congr rfl fun s _ => ?_
  rw [(eigen_level hO k).2 s, map_mul, Complex.conj_ofReal]
  ring

theorem amplitude_norm (hO : O.IsHermitian) (ψ : C → ℂ) :
    ∑ k, Complex.normSq (amplitude hO ψ k) = norm2 ψ := by
  rw [← toE_norm, ← hO.eigenvectorBasis.sum_sq_norm_inner_right]
  refine Finset.sum_congr rfl fun k _ => ?_
  rw [Complex.normSq_eq_norm_sq]
  rfl

theorem amplitude_inner (hO : O.IsHermitian) (φ ψ : C → ℂ) :
    ∑ s, (starRingEnd ℂ) (φ s) * ψ s = ∑ k, (starRingEnd ℂ) (amplitude hO φ k) * amplitude hO ψ k := by
  rw [← toE_inner, ← hO.eigenvectorBasis.sum_inner_mul_inner]
  refine Finset.sum_congr rfl fun k _ => ?_
  rw [← inner_conj_symm]
  rfl

/-- Energy and variance are mean and variance of the levels. -/
theorem expect_levels (hO : O.IsHermitian) (ψ : C → ℂ) :
    expect O ψ = ((∑ k, hO.eigenvalues k * Complex.normSq (amplitude hO ψ k) : ℝ) : ℂ) / (norm2 ψ : ℂ) := by
  unfold expect
  rw [amplitude_inner hO ψ (O *ᵥ ψ), Complex.ofReal_sum]
  congr 1
  refine Finset.sum_congr rfl fun k _ => ?_
  rw [amplitude_apply, Complex.ofReal_mul, Complex.normSq_eq_conj_mul_self]
  ring

theorem spread_levels (hO : O.IsHermitian) (ψ : C → ℂ) (hψ : ψ ≠ 0) :
    spread O ψ * norm2 ψ
      = ∑ k, (hO.eigenvalues k - (expect O ψ).re) ^ 2 * Complex.normSq (amplitude hO ψ k) := by
  have hZ := norm2_pos_of_ne ψ hψ
  set E := (expect O ψ).re with hE
  have hEc : expect O ψ = (E : ℂ) := by
    rw [hE, expect_levels hO ψ, ← Complex.ofReal_div, Complex.ofReal_re]
  have h1 : ∑ k, hO.eigenvalues k * Complex.normSq (amplitude hO ψ k) = E * norm2 ψ := by
    have h2 : ((∑ k, hO.eigenvalues k * Complex.normSq (amplitude hO ψ k) : ℝ) : ℂ) / (norm2 ψ : ℂ) = (E : ℂ) := by
      rw [← expect_levels, hEc]
    rw [← Complex.ofReal_div] at h2
    have h3 := Complex.ofReal_injective h2
    rw [← h3, div_mul_cancel₀ _ hZ.ne']
  have h2 : norm2 (O *ᵥ ψ) = ∑ k, hO.eigenvalues k ^ 2 * Complex.normSq (amplitude hO ψ k) := by
    rw [← amplitude_norm hO]
    refine Finset.sum_congr rfl fun k _ => ?_
    rw [amplitude_apply, Complex.normSq_mul, Complex.normSq_ofReal]
    ring
  have h3 : ∀ k, (hO.eigenvalues k - E) ^ 2 * Complex.normSq (amplitude hO ψ k)
      = hO.eigenvalues k ^ 2 * Complex.normSq (amplitude hO ψ k)
        - 2 * E * (hO.eigenvalues k * Complex.normSq (amplitude hO ψ k))
        + E ^ 2 * Complex.normSq (amplitude hO ψ k) := fun k => by ring
  simp only [h3, Finset.sum_add_distrib, Finset.sum_sub_distrib, ← Finset.mul_sum]
  rw [h1, amplitude_norm, ← h2]
  unfold spread
  rw [hEc, Complex.normSq_ofReal, sub_mul, div_mul_cancel₀ _ hZ.ne']
  ring

/-- C98: some energy level differs from the energy of `ψ` by at most the standard deviation. -/
theorem c98_level (hO : O.IsHermitian) (ψ : C → ℂ) (hψ : ψ ≠ 0) :
    ∃ e v, Level O e v ∧ |e - (expect O ψ).re| ≤ √(spread O ψ) := by
  have hZ := norm2_pos_of_ne ψ hψ
  by_contra hcon
  push Not at hcon
  have hlt : ∀ k, spread O ψ < (hO.eigenvalues k - (expect O ψ).re) ^ 2 := by
    intro k
    have h := hcon _ _ (eigen_level hO k)
    have h1 := Real.lt_sq_of_sqrt_lt h
    rwa [sq_abs] at h1
  obtain ⟨k₀, hk₀⟩ : ∃ k, Complex.normSq (amplitude hO ψ k) ≠ 0 := by
    by_contra h0
    push Not at h0
    have := amplitude_norm hO ψ
    simp only [h0, Finset.sum_const_zero] at this
    exact hZ.ne this
  have h1 : ∑ k, spread O ψ * Complex.normSq (amplitude hO ψ k)
      < ∑ k, (hO.eigenvalues k - (expect O ψ).re) ^ 2 * Complex.normSq (amplitude hO ψ k) := by
    refine Finset.sum_lt_sum (fun k _ => mul_le_mul_of_nonneg_right (hlt k).le (Complex.normSq_nonneg _))
      ⟨k₀, Finset.mem_univ _, mul_lt_mul_of_pos_right (hlt k₀) ?_⟩
    exact lt_of_le_of_ne (Complex.normSq_nonneg _) (Ne.symm hk₀)
  rw [← Finset.mul_sum, amplitude_norm, ← spread_levels hO ψ hψ] at h1
  exact lt_irrefl _ h1

/-- C98: the energy of `ψ` is not below the ground state energy. -/
theorem c98_variational (hO : O.IsHermitian) (ψ : C → ℂ) (hψ : ψ ≠ 0) (e₀ : ℝ)
    (h0 : ∀ e v, Level O e v → e₀ ≤ e) : e₀ ≤ (expect O ψ).re := by
  have hZ := norm2_pos_of_ne ψ hψ
  rw [expect_levels hO, ← Complex.ofReal_div, Complex.ofReal_re, le_div_iff₀ hZ, ← amplitude_norm hO,
    Finset.mul_sum]
  exact Finset.sum_le_sum fun k _ => mul_le_mul_of_nonneg_right (h0 _ _ (eigen_level hO k)) (Complex.normSq_nonneg _)

example := c98_variational (O := (!![1, 0; 0, 2] : Matrix (Fin 2) (Fin 2) ℂ))
  (by ext i j; fin_cases i <;> fin_cases j <;> simp) ![1, 2] (fun h => one_ne_zero (congrFun h 0)) 1
  (by
    rintro e v ⟨hv, h⟩
    have h0 := h 0
    have h1 := h 1
    simp [Matrix.mulVec, dotProduct, Fin.sum_univ_two] at h0 h1
    by_cases h2 : v 0 = 0
    · by_cases h3 : v 1 = 0
      · exact absurd (funext fun s => by fin_cases s <;> simp [h2, h3]) hv
      · have := h1.resolve_right h3
        norm_cast at this
        linarith
    · have : (1 : ℂ) = e := mul_right_cancel₀ h2 ((one_mul _).trans h0)
      norm_cast at this
      linarith)

/-- An eigenvector that is not orthogonal to a non-degenerate ground state is proportional to it. -/
theorem ground_unique {e₀ e₁ : ℝ} {v : C → ℂ} (hg : GroundState O e₀ e₁ v) (hO : O.IsHermitian) (k : C)
    (hk : hO.eigenvalues k < e₁) : ∃ a : ℂ, ∀ s, (hO.eigenvectorBasis k).ofLp s = a * v s := by
  set b := (hO.eigenvectorBasis k).ofLp with hb
  obtain ⟨hb0, hbl⟩ := eigen_level hO k
  have hZ := norm2_pos_of_ne v hg.level.1
  have hZc : (norm2 v : ℂ) ≠ 0 := by exact_mod_cast hZ.ne'
  have hself : ∑ s, (starRingEnd ℂ) (v s) * v s = (norm2 v : ℂ) := by
    unfold norm2
    rw [Complex.ofReal_sum]
    exact Finset.sum_congr rfl fun s _ => (Complex.normSq_eq_conj_mul_self).symm
  set a := (∑ s, (starRingEnd ℂ) (v s) * b s) / (norm2 v : ℂ) with ha
  -- same energy
  have hsame : hO.eigenvalues k = e₀ := by
    by_contra hne
    have horth : ∑ s, (starRingEnd ℂ) (v s) * b s = 0 := by
      have h1 := toE_symm hO v b
      rw [toE_inner, toE_inner] at h1
      simp only [hg.level.2, hb, hbl, map_mul, Complex.conj_ofReal] at h1
      have h2 : ((e₀ : ℂ) - hO.eigenvalues k) * ∑ s, (starRingEnd ℂ) (v s) * b s = 0 := by
        rw [sub_mul, Finset.mul_sum, Finset.mul_sum, sub_eq_zero]
        calc _ = ∑ s, (e₀ : ℂ) * (starRingEnd ℂ) (v s) * b s := Finset.sum_congr rfl fun s _ => by ring
          _ = _ := h1
          _ = _ := Finset.sum_congr rfl fun s _ => by rw [hb]; ring
      rcases mul_eq_zero.mp h2 with h3 | h3
      · exact absurd (by exact_mod_cast (sub_eq_zero.mp h3).symm) hne
      · exact h3
    exact absurd (hg.excited _ _ ⟨hb0, hbl⟩ horth) (not_le.mpr hk)
  refine ⟨a, fun s => ?_⟩
  by_contra hne
  have hw : Level O e₀ fun s => b s - a * v s := by
    constructor
    · intro h0
      exact hne (sub_eq_zero.mp (congrFun h0 s))
    · intro s
      have h1 : (fun s => b s - a * v s) = b - a • v := rfl
      rw [h1, Matrix.mulVec_sub, Matrix.mulVec_smul]
      simp only [Pi.sub_apply, Pi.smul_apply, smul_eq_mul, hg.level.2 s]
      rw [hb, hbl s, hsame]
      ring
  have := hg.excited _ _ hw (by
    have h1 : ∀ s, (starRingEnd ℂ) (v s) * (b s - a * v s)
        = (starRingEnd ℂ) (v s) * b s - a * ((starRingEnd ℂ) (v s) * v s) := fun s => by ring
    simp only [h1, Finset.sum_sub_distrib, ← Finset.mul_sum]
    rw [hself, ha, div_mul_cancel₀ _ hZc, sub_self])
  exact absurd hg.gap (not_lt.mpr this)

/-- C98: the distance from the ground state is bounded by the excess of the energy in units of the gap. -/
theorem c98_ground_state (hO : O.IsHermitian) (ψ : C → ℂ) (hψ : ψ ≠ 0) {e₀ e₁ : ℝ} {v : C → ℂ}
    (hg : GroundState O e₀ e₁ v) :
    stateDistance v ψ ^ 2 ≤ ((expect O ψ).re - e₀) / (e₁ - e₀) := by
  have hZ := norm2_pos_of_ne ψ hψ
  have hV := norm2_pos_of_ne v hg.level.1
  have hgap := sub_pos.mpr hg.gap
  -- the basis vector that is the ground state
  obtain ⟨k₀, hk₀⟩ : ∃ k, amplitude hO v k ≠ 0 := by
    by_contra h0
    push Not at h0
    have := amplitude_norm hO v
    simp only [h0, map_zero, Finset.sum_const_zero] at this
    exact hV.ne this
  have he₀ : hO.eigenvalues k₀ = e₀ := by
    have h1 := amplitude_apply hO v k₀
    have h2 : O *ᵥ v = (e₀ : ℂ) • v := funext fun s => hg.level.2 s
    have h3 : amplitude hO ((e₀ : ℂ) • v) k₀ = e₀ * amplitude hO v k₀ := by
      unfold amplitude
      have h4 : toE ((e₀ : ℂ) • v) = (e₀ : ℂ) • toE v := rfl
      rw [h4, inner_smul_right]
    rw [h2, h3] at h1
    exact_mod_cast (mul_right_cancel₀ hk₀ h1).symm
  obtain ⟨a, ha⟩ := ground_unique hg hO k₀ (he₀ ▸ hg.gap)
  have hb₀ : hO.eigenvectorBasis k₀ = a • toE v := by
    ext s
    exact ha s
  have ha0 : a ≠ 0 := by
    intro h0
    have h1 := hO.eigenvectorBasis.orthonormal.1 k₀
    rw [hb₀, h0, zero_smul, norm_zero] at h1
    exact zero_ne_one h1
  have hamp : ∀ k, k ≠ k₀ → amplitude hO v k = 0 := by
    intro k hk
    have h1 : inner ℂ (hO.eigenvectorBasis k) (hO.eigenvectorBasis k₀) = 0 :=
      hO.eigenvectorBasis.orthonormal.2 hk
    rw [hb₀, inner_smul_right] at h1
    exact (mul_eq_zero.mp h1).resolve_left ha0
  have hex : ∀ k, k ≠ k₀ → e₁ ≤ hO.eigenvalues k := by
    intro k hk
    refine hg.excited _ _ (eigen_level hO k) ?_
    have h1 := hamp k hk
    unfold amplitude at h1
    rw [← inner_conj_symm, map_eq_zero] at h1
    rw [← toE_inner]
    exact h1
  have hnv : norm2 v = Complex.normSq (amplitude hO v k₀) := by
    rw [← amplitude_norm hO, Finset.sum_eq_single k₀ (fun k _ hk => by rw [hamp k hk, map_zero])
      (fun h => absurd (Finset.mem_univ _) h)]
  have hfid : fidelity v ψ = Complex.normSq (amplitude hO ψ k₀) / norm2 ψ := by
    unfold fidelity
    rw [amplitude_inner hO, Finset.sum_eq_single k₀ (fun k _ hk => by rw [hamp k hk, map_zero, zero_mul])
      (fun h => absurd (Finset.mem_univ _) h), Complex.normSq_mul, Complex.normSq_conj, ← hnv,
      mul_div_mul_left _ _ hV.ne']
  have hE : (e₁ - (e₁ - e₀) * fidelity v ψ) * norm2 ψ ≤ (expect O ψ).re * norm2 ψ := by
    rw [expect_levels hO, ← Complex.ofReal_div, Complex.ofReal_re, div_mul_cancel₀ _ hZ.ne', hfid, sub_mul,
      mul_assoc, div_mul_cancel₀ _ hZ.ne', ← amplitude_norm hO ψ, Finset.mul_sum,
      ← Finset.add_sum_erase _ _ (Finset.mem_univ k₀),
      ← Finset.add_sum_erase (a := k₀) _ (fun k => hO.eigenvalues k * Complex.normSq (amplitude hO ψ k))
        (Finset.mem_univ k₀), he₀]
    have h1 : ∑ k ∈ Finset.univ.erase k₀, e₁ * Complex.normSq (amplitude hO ψ k)
        ≤ ∑ k ∈ Finset.univ.erase k₀, hO.eigenvalues k * Complex.normSq (amplitude hO ψ k) :=
      Finset.sum_le_sum fun k hk =>
        mul_le_mul_of_nonneg_right (hex k (Finset.ne_of_mem_erase hk)) (Complex.normSq_nonneg _)
    linarith
  have h1 := le_of_mul_le_mul_right hE hZ
  unfold stateDistance
  have hf1 : fidelity v ψ ≤ 1 := by
    rw [← toE_overlap]
    exact overlap_le_one _ _
  rw [Real.sq_sqrt (by linarith), le_div_iff₀ hgap]
  linarith

end levels

section calls

variable {C : Type} [Fintype C] [DecidableEq C] {kernel : C → List (C × ℂ)} {O : Matrix C C ℂ} {n : ℕ}
  {smp : Type}

/-- Sampler, Hamiltonian and network of the TDVP object: whenever the samples are drawn for parameters `θ`, their
weights are exact, and local energies and gradients are those of `exp(log ψ_θ)` (see C10, C22, C41, C77). -/
def ExactlySampled (kernel : C → List (C × ℂ)) (O : Matrix C C ℂ) (logPsi : (Fin (n + 1) → ℝ) → C → ℂ)
    (env : TdvpEnv n smp) (r : ℕ) : Prop :=
  ∀ θ p sm t, flattenParams p = List.ofFn θ → ∀ joint sm', env.measure p sm t = .ok (joint, sm') →
    ∃ grads w, TdvpStep kernel O logPsi θ grads w ∧ r < List.length w ∧
      joint = tdvpJoint O (fun c => Complex.exp (logPsi θ c)) grads w

/-- Mean and variance of the local energies. -/
theorem joint_energy [Nonempty C] {logPsi : (Fin (n + 1) → ℝ) → C → ℂ} {θ : Fin (n + 1) → ℝ}
    {grads : C → Fin (n + 1) → ℂ} {w : World (C × ℂ × ℝ)} (hst : TdvpStep kernel O logPsi θ grads w) :
    wMean ((allSamples (tdvpJoint O (fun c => Complex.exp (logPsi θ c)) grads w)).map fun s => (s.1, s.2.1)) 0
        = expect O (fun c => Complex.exp (logPsi θ c)) ∧
      wVar ((allSamples (tdvpJoint O (fun c => Complex.exp (logPsi θ c)) grads w)).map fun s => (s.1, s.2.1)) 0
        = spread O fun c => Complex.exp (logPsi θ c) := by
  have hne : ∀ s, Complex.exp (logPsi θ s) ≠ 0 := fun s => Complex.exp_ne_zero _
  have e : (allSamples (tdvpJoint O (fun c => Complex.exp (logPsi θ c)) grads w)).map (fun s => (s.1, s.2.1))
      = allSamples (World.map (fun x => (x.2.2, fun _ : Fin 1 =>
          localValue O (fun c => Complex.exp (logPsi θ c)) x.1)) w) := by
    unfold tdvpJoint
    rw [allSamples_wmap, allSamples_wmap, List.map_map]
    rfl
  rw [e]
  constructor
  · rw [wMean_born w _ hst.weights (fun s _ => localValue O (fun c => Complex.exp (logPsi θ c)) s) 0,
      born_mean O _ hne]
  · rw [wVar_born w _ hst.weights (fun s _ => localValue O (fun c => Complex.exp (logPsi θ c)) s) 0]
    have hZ := norm2_pos (fun c => Complex.exp (logPsi θ c)) (Classical.arbitrary C) (hne _)
    rw [born_mean O _ hne, weighted_variance _ _ (born_total _ hZ) _ (born_mean O _ hne),
      born_second O _ hne]
    rfl

/-- C98: after a call with exactly weighted samples `ElocMean0` and `ElocVar0` are energy and variance of the
variational state, also if the update is NaN. -/
theorem c98_reported [Nonempty C] (logPsi : (Fin (n + 1) → ℝ) → C → ℂ) (env : TdvpEnv n smp) (r : ℕ)
    (henv : ExactlySampled kernel O logPsi env r) (cfg : TdvpCfg n) (p₀ : Params)
    (hp₀ : (flattenParams p₀).length = n + 1) (ops : List NqsOp) (hops : ∀ op ∈ ops, op.Fits p₀)
    (θ : Fin (n + 1) → ℝ) (t : ℝ) (sm sm' : smp) (at₀ at₁ : TdvpAttrs n) (u : Flt (Fin (n + 1) → ℝ)) (st' : NqsState)
    (h : (tdvpCall env cfg r (List.ofFn θ) t (some 0) sm at₀).call (nqsRun p₀ ops) = (.ok (u, at₁, sm'), st'))
    (hinit : nqsRun p₀ ops ≠ none) :
    O.IsHermitian ∧ at₁.eloc0 = some (some (expect O (fun c => Complex.exp (logPsi θ c)),
      spread O fun c => Complex.exp (logPsi θ c))) := by
  obtain ⟨st, hst⟩ := Option.ne_none_iff_exists'.mp hinit
  have hw := wf_run p₀ ops hops st hst
  rw [hst] at h
  obtain ⟨q, hq, -, -, hq3⟩ := paramUnflatten_ok st.realParams st.sizes (List.ofFn θ)
    (by rw [List.length_ofFn, hw.1, hw.2.1, ← flatten_length_params, hp₀])
  obtain ⟨q', joint, E, G, res, atS, p', hq', hm, -⟩ :=
    tdvpCall_ok env cfg r (List.ofFn θ) t (some 0) sm sm' at₀ at₁ st st' u h
  obtain rfl := Except.ok.inj (hq.symm.trans hq')
  obtain ⟨grads, w, hstep, hr, rfl⟩ := henv θ q sm t hq3 joint sm' hm
  obtain ⟨e1, e2⟩ := joint_energy hstep
  have hv := call_variance env cfg r (List.ofFn θ) t sm sm' at₀ at₁ st st' u q hq _ hm
    (World.map_ne _ _ hstep.samples.devices) (by
      intro s hs
      unfold tdvpJoint at hs
      rw [allSamples_wmap] at hs
      obtain ⟨y, hy, rfl⟩ := List.mem_map.mp hs
      exact hstep.nonneg y hy) (by simpa [tdvpJoint, World.map] using hr) h
  rw [e1, e2] at hv
  exact ⟨hstep.hermitian, hv.1⟩

/-- C98: the numbers that a TDVP call reports locate energy levels: the energy is not below the ground state
energy, some level lies within the standard deviation, and the distance of the state from the ground
state is bounded by the energy in units of the gap. -/
theorem c98_call [Nonempty C] (logPsi : (Fin (n + 1) → ℝ) → C → ℂ) (env : TdvpEnv n smp) (r : ℕ)
    (henv : ExactlySampled kernel O logPsi env r) (cfg : TdvpCfg n) (p₀ : Params)
    (hp₀ : (flattenParams p₀).length = n + 1) (ops : List NqsOp) (hops : ∀ op ∈ ops, op.Fits p₀)
    (hinit : nqsRun p₀ ops ≠ none)
    (θ : Fin (n + 1) → ℝ) (t : ℝ) (sm sm' : smp) (at₀ at₁ : TdvpAttrs n) (u : Flt (Fin (n + 1) → ℝ)) (st' : NqsState)
    (h : (tdvpCall env cfg r (List.ofFn θ) t (some 0) sm at₀).call (nqsRun p₀ ops) = (.ok (u, at₁, sm'), st')) :
    ∃ (E : ℂ) (var : ℝ), at₁.eloc0 = some (some (E, var)) ∧
      (∃ e v, Level O e v ∧ |e - E.re| ≤ √var) ∧
      (∀ e₀, (∀ e v, Level O e v → e₀ ≤ e) → e₀ ≤ E.re) ∧
      ∀ e₀ e₁ v, GroundState O e₀ e₁ v →
        stateDistance v (fun c => Complex.exp (logPsi θ c)) ^ 2 ≤ (E.re - e₀) / (e₁ - e₀) := by
  obtain ⟨hO, hel⟩ := c98_reported logPsi env r henv cfg p₀ hp₀ ops hops θ t sm sm' at₀ at₁ u st' h hinit
  have hne : (fun c => Complex.exp (logPsi θ c)) ≠ 0 := fun h0 =>
    Complex.exp_ne_zero _ (congrFun h0 (Classical.arbitrary C))
  exact ⟨_, _, hel, c98_level hO _ hne, fun e₀ h0 => c98_variational hO _ hne e₀ h0,
    fun e₀ e₁ v hg => c98_ground_state hO _ hne hg⟩

/-- C98 for `ground_state_search`: if the search stops before `numSteps` steps (with a tolerance below 1), then the
state *before the last step* has an energy variance of at most the tolerance; the TDVP object reports
its energy, and some energy level differs from it by at most the root of the tolerance. Missing: the
returned state, which is one step further (`c98_final_violated`). -/
theorem c98_search_partial [Nonempty C] {Q : Type} (logPsi : (Fin (n + 1) → ℝ) → C → ℂ) (env : TdvpEnv n smp) (r : ℕ)
    (henv : ExactlySampled kernel O logPsi env r) (cfg : TdvpCfg n)
    (meas : NqsState → smp → Except PyErr (Q × smp)) (numSteps : ℤ) (tol stepSize : ℝ) (htol : tol < 1)
    (record : Bool) (p₀ : Params) (hp₀ : (flattenParams p₀).length = n + 1) (ops : List NqsOp)
    (hops : ∀ op ∈ ops, op.Fits p₀) (hinit : nqsRun p₀ ops ≠ none) (at₀ : TdvpAttrs n) (sm₀ : smp)
    (s : GsState Q (NqsState × TdvpAttrs n × smp))
    (h : groundStateSearch (tdvpApi env cfg r meas) numSteps tol stepSize record cfg.diagonalShift
      (nqsRun p₀ ops, at₀, sm₀) = .ok s) (hstop : (s.n : ℤ) < numSteps) :
    ∃ θ u : Fin (n + 1) → ℝ, (getParameters.call s.w.1).1 = .ok (some (List.ofFn (θ + stepSize • u))) ∧
      ∃ (E : ℂ) (var : ℝ), s.w.2.1.eloc0 = some (some (E, var)) ∧
        E = expect O (fun c => Complex.exp (logPsi θ c)) ∧
        var = spread O (fun c => Complex.exp (logPsi θ c)) ∧ var ≤ tol ∧
        ∃ e v, Level O e v ∧ |e - E.re| ≤ √tol := by
  obtain ⟨θ, u, v, A, -, hA, -, hk, -, hfin, -, hst, -⟩ := c51_tdvp_partial env cfg r meas numSteps tol stepSize record
    p₀ hp₀ ops hops hinit at₀ sm₀ s h
  obtain ⟨k, hkn, hnot⟩ : ∃ k, k + 1 = s.n ∧ ¬ Above (v k) tol := by
    rcases hst hstop with h1 | h1
    · exact absurd h1.2 (not_le.mpr htol)
    · exact h1
  obtain ⟨hθ, sm₁, sm₂, ops', hops', hget, hcall, hv⟩ := hk k (by omega)
  have hinit' : nqsRun p₀ ops' ≠ none := by
    intro h0
    rw [h0] at hget
    cases hget
  obtain ⟨hO, hel⟩ := c98_reported logPsi env r henv _ p₀ hp₀ ops' hops' (θ k) 0 sm₁ sm₂ (A k) (A (k + 1)) _ _
    hcall hinit'
  have hne : (fun c => Complex.exp (logPsi (θ k) c)) ≠ 0 := fun h0 =>
    Complex.exp_ne_zero _ (congrFun h0 (Classical.arbitrary C))
  rw [← hkn] at hA hfin
  rw [hel] at hv
  have hvk : v k = some (spread O fun c => Complex.exp (logPsi (θ k) c)) := (Option.some.inj hv).symm
  have hle : spread O (fun c => Complex.exp (logPsi (θ k) c)) ≤ tol := by
    by_contra hlt
    exact hnot ⟨_, hvk, not_le.mp hlt⟩
  obtain ⟨e, w, hl, hd⟩ := c98_level hO _ hne
  exact ⟨θ k, u k, by rw [hfin, hθ], _, _, by rw [hA, hel], rfl, rfl, hle, e, w, hl,
    hd.trans (Real.sqrt_le_sqrt hle)⟩

end calls

/-! ### A case: one spin in a transverse field -/

/-- The cutoff with which the loop of `solve` ends. -/
theorem solve_cutoff_le {n : ℕ} (cfg : TdvpCfg n) (hc : cfg.pinvCutoff ≤ 1e-2) (r : ℕ)
    (joint : World (ℝ × (Fin 1 → ℂ) × (Fin (n + 1) → ℂ)))
    (E : SObs (Fin 1)) (G : SObs (Fin (n + 1))) (hi : TdvpInput joint r E G) (at₀ at₁ : TdvpAttrs n)
    (res : SolveRes n) (hres : tdvpSolve cfg r (some (E, G)) at₀ = .ok (res, at₁)) : res.cutoff ≤ 1e-2 := by
  obtain ⟨snr, hsnr, heq⟩ := tdvpSolve_eq cfg r joint hi.devices hi.weights hi.rank E G hi.data
  rw [heq at₀] at hres
  cases hl : pinvLoop cfg (tdvpEigenbasis cfg (specQS cfg (allSamples joint))
      (specQF cfg (allSamples joint))) snr (specQF cfg (allSamples joint)) with
  | none => rw [hl] at hres; cases hres
  | some s =>
    have hs : s.cutoff ≤ 1e-2 ∧ 0 ≤ s.cutoff :=
      (whileLoop_inv _ _ (fun s => s.cutoff ≤ 1e-2 ∧ 0 ≤ s.cutoff) _ _ (by norm_num)
        (fun x hx _ => ⟨by change x.cutoff * (4 / 5) ≤ _; linarith, by
          change 0 ≤ x.cutoff * (4 / 5); linarith⟩) hl).1
    rw [hl] at hres
    unfold tdvpUpdate at hres
    dsimp only at hres
    cases hp : s.pinvEv with
    | none => rw [hp] at hres; cases hres
    | some p =>
      rw [hp] at hres
      have h1 := congrArg Prod.fst (Except.ok.inj hres)
      have h2 : max s.cutoff cfg.pinvCutoff = res.cutoff := congrArg SolveRes.cutoff h1
      rw [← h2]
      exact max_le hs.1 hc

/-- `log ψ(s) = θ s`. -/
noncomputable def tiltLog (θ : Fin 1 → ℝ) (s : Fin 2) : ℂ := θ 0 * (s.val : ℂ)

noncomputable def tiltKernel (s : Fin 2) : List (Fin 2 × ℂ) := [(1 - s, -1)]

noncomputable def tiltMatrix : Matrix (Fin 2) (Fin 2) ℂ := !![0, -1; -1, 0]

noncomputable def tiltWorld (a : ℝ) : World (Fin 2 × ℂ × ℝ) :=
  [[[(0, 0, 1 / (1 + Real.exp a ^ 2)), (1, (a : ℂ), Real.exp a ^ 2 / (1 + Real.exp a ^ 2))]]]

noncomputable def tiltGrads (s : Fin 2) : Fin 1 → ℂ := ![(s.val : ℂ)]

noncomputable def tiltEnv : TdvpEnv 0 Unit :=
  ⟨fun p _ _ => .ok (tdvpJoint tiltMatrix (fun c => Complex.exp (tiltLog (fun _ => (flattenParams p).headD 0) c))
    tiltGrads (tiltWorld ((flattenParams p).headD 0)), ())⟩

noncomputable def tiltCfg : TdvpCfg 0 :=
  ⟨2, 1e-8, 1e-6, "real", 1, 0, false, true, 2, someEigh⟩

theorem tilt_psi (θ : Fin 1 → ℝ) : (fun c => Complex.exp (tiltLog θ c)) = ![1, ((Real.exp (θ 0) : ℝ) : ℂ)] := by
  funext s
  fin_cases s <;> simp [tiltLog]

noncomputable def tiltLinear (s : Fin 2) : (Fin 1 → ℝ) →ₗ[ℝ] ℂ where
  toFun p := tiltLog p s
  map_add' p q := by simp [tiltLog]; ring
  map_smul' a p := by simp [tiltLog]; ring

theorem tilt_step (θ : Fin 1 → ℝ) :
    TdvpStep tiltKernel tiltMatrix tiltLog θ tiltGrads (tiltWorld (θ 0)) := by
  have hf : ∀ s : Fin 2, HasFDerivAt (fun p => tiltLog p s)
      (LinearMap.toContinuousLinearMap (tiltLinear s)) θ := fun s =>
    (LinearMap.toContinuousLinearMap (tiltLinear s)).hasFDerivAt
  refine ⟨⟨?_, ⟨1, fun _ => rfl⟩, ?_⟩, ?_, fun s => (hf s).differentiableAt, ?_, ?_, ?_⟩
  · intro s s'
    fin_cases s <;> fin_cases s' <;> simp [tiltKernel, tiltMatrix, elementOf]
  · intro s e he
    right
    fin_cases s <;> simp [tiltKernel] at he <;> subst he <;> norm_num
  · ext i j
    fin_cases i <;> fin_cases j <;> simp [tiltMatrix, Matrix.conjTranspose_apply]
  · intro s k
    rw [(hf s).fderiv]
    change _ = tiltLog (Pi.single k 1) s
    fin_cases k
    simp [tiltLog, tiltGrads]
  · refine ⟨?_, ?_, ?_⟩ <;> simp [tiltWorld, allSamples, tiltLog]
  · have h : weighted (tiltWorld (θ 0)) = [(1 / (1 + Real.exp (θ 0) ^ 2), 0),
        (Real.exp (θ 0) ^ 2 / (1 + Real.exp (θ 0) ^ 2), 1)] := rfl
    have h1 : norm2 (![1, ((Real.exp (θ 0) : ℝ) : ℂ)] : Fin 2 → ℂ) = 1 + Real.exp (θ 0) ^ 2 := by
      unfold norm2
      rw [Fin.sum_univ_two]
      simp only [Matrix.cons_val_zero, Matrix.cons_val_one, Complex.normSq_ofReal, map_one]
      ring
    rw [h, tilt_psi]
    constructor
    · intro x hx
      have := Real.exp_pos (θ 0)
      simp only [List.mem_cons, List.not_mem_nil, or_false] at hx
      rcases hx with rfl | rfl <;> dsimp only <;> positivity
    · intro s
      rw [h1]
      fin_cases s
      · simp [weightOf]
      · simp [weightOf, -Complex.ofReal_exp, Complex.normSq_ofReal, sq]

theorem tilt_sampled : ExactlySampled tiltKernel tiltMatrix tiltLog tiltEnv 0 := by
  intro θ p sm t hp joint sm' hm
  have h0 : (flattenParams p).headD 0 = θ 0 := by
    rw [hp]
    simp
  have h1 : (fun _ : Fin 1 => θ 0) = θ := by
    funext i
    rw [Fin.fin_one_eq_zero i]
  refine ⟨tiltGrads, tiltWorld (θ 0), tilt_step θ, by simp [tiltWorld], ?_⟩
  unfold tiltEnv at hm
  simp only [h0, h1] at hm
  exact (congrArg Prod.fst (Except.ok.inj hm)).symm

/-- At `ψ = (1, 2)`. -/
noncomputable def tiltJoint : World (ℝ × (Fin 1 → ℂ) × (Fin 1 → ℂ)) :=
  [[[(1 / 5, ![-2], ![0]), (4 / 5, ![-(1 / 2)], ![1])]]]

theorem tilt_joint (θ : Fin 1 → ℝ) (h : θ 0 = Real.log 2) :
    tdvpJoint tiltMatrix (fun c => Complex.exp (tiltLog θ c)) tiltGrads (tiltWorld (θ 0)) = tiltJoint := by
  rw [tilt_psi, h, Real.exp_log (by norm_num)]
  unfold tdvpJoint tiltWorld tiltJoint
  rw [Real.exp_log (by norm_num)]
  simp only [World.map, List.map_cons, List.map_nil]
  congr 3
  · congr 1
    · norm_num
    · congr 1
      · funext i
        fin_cases i
        simp [localValue, tiltMatrix]
      · simp [tiltGrads]
  · congr 1
    congr 1
    · norm_num
    · congr 1
      · funext i
        fin_cases i
        simp [localValue, tiltMatrix]
        norm_num
      · simp [tiltGrads]

theorem tiltSamples : allSamples tiltJoint = [(1 / 5, ![-2], ![0]), (4 / 5, ![-(1 / 2)], ![1])] := rfl

theorem tiltQS : specQS tiltCfg (allSamples tiltJoint) = Matrix.of fun _ _ => (4 / 25 : ℂ) := by
  unfold specQS
  rw [if_neg (by norm_num [tiltCfg])]
  ext i j
  have hi : i = 0 := Fin.fin_one_eq_zero i
  have hj : j = 0 := Fin.fin_one_eq_zero j
  subst hi hj
  have h5 : ((starRingEnd ℂ) 4 / (starRingEnd ℂ) 5).re = 4 / 5 := by
    rw [show ((starRingEnd ℂ) 4 / (starRingEnd ℂ) 5) = (((4 / 5 : ℝ)) : ℂ) by
      rw [Complex.conj_ofNat, Complex.conj_ofNat]; norm_num]
    exact Complex.ofReal_re _
  simp [specS, wCross, tiltSamples, wMean, TdvpCfg.q, tiltCfg, h5]
  norm_num

/-- The update that the search makes. -/
theorem tilt_solve (E : SObs (Fin 1)) (G : SObs (Fin 1)) (hi : TdvpInput tiltJoint 0 E G) (res : SolveRes 0)
    (at₀ at₁ : TdvpAttrs 0) (hres : tdvpSolve tiltCfg 0 (some (E, G)) at₀ = .ok (res, at₁)) :
    ∃ u, res.update = some u ∧ u 0 ≤ -(5 / 4) ∧ -(7 / 4) ≤ u 0 := by
  have heq := getTdvpEquation_eq tiltCfg 0 tiltJoint hi.devices hi.weights hi.rank E G hi.data at₀
  rw [tiltQS] at heq
  have hE : EighCorrect tiltCfg := someEigh_correct _ rfl
  have hH : (Matrix.of fun _ _ => (4 / 25 : ℂ) : Matrix (Fin 1) (Fin 1) ℂ).IsHermitian := by
    ext i j
    simp [Matrix.conjTranspose_apply]
  have hev : (tiltCfg.eigh (Matrix.of fun _ _ => (4 / 25 : ℂ))).1 (Fin.last 0) ≠ 0 := by
    have h := hE _ hH
    intro h0
    have h1 := congrFun (congrFun h.decomp 0) 0
    have h2 := congrFun (congrFun h.unitary 0) 0
    rw [Matrix.mul_diagonal] at h1
    change (tiltCfg.eigh (Matrix.of fun _ _ => (4 / 25 : ℂ))).1 0 = 0 at h0
    rw [h0] at h1
    simp [Matrix.mul_apply] at h1 h2
    rw [h1] at h2
    simp at h2
  obtain ⟨ev, V, hVe⟩ : ∃ ev V, tiltCfg.eigh (Matrix.of fun _ _ => (4 / 25 : ℂ)) = (ev, V) := ⟨_, _, rfl⟩
  rw [hVe] at hev
  obtain ⟨u, hu, hle⟩ := c88_exact_velocity tiltCfg hE (by norm_num [tiltCfg]) 0 tiltJoint E G hi at₀ at₁
    _ _ _ heq res hres ev V hVe hev (by norm_num [tiltCfg]) 1 1 (by norm_num)
    (fun k => by
      have : k = Fin.last 0 := Fin.fin_one_eq_zero k
      rw [this, div_self (abs_ne_zero.mpr hev)]) zero_le_one le_rfl (fun _ => 1) (Or.inl rfl)
    (fun _ => -(3 / 2))
    (by
      rw [tiltSamples]
      simp [tdvpDistance, wMean, tiltCfg]
      norm_num)
  have hc1 := solve_cutoff_le tiltCfg (by norm_num [tiltCfg]) 0 tiltJoint E G hi at₀ at₁ res hres
  have hc0 := (c45_exit tiltCfg 0 tiltJoint E G hi at₀ at₁ res hres).1
  have hc0' : 0 ≤ res.cutoff := le_trans (by norm_num [tiltCfg]) hc0
  refine ⟨u, hu, ?_⟩
  have hm : missOf 1 res.cutoff 1 ≤ 1 / 10 := by
    unfold missOf
    rw [div_one]
    have h6 : res.cutoff ^ 6 ≤ 1 / 100 := by
      calc res.cutoff ^ 6 ≤ (1e-2) ^ 6 := pow_le_pow_left₀ hc0' hc1 6
        _ ≤ 1 / 100 := by norm_num
    have h7 : 0 ≤ res.cutoff ^ 6 := pow_nonneg hc0' 6
    rw [sub_le_comm, le_div_iff₀ (by linarith)]
    linarith
  simp only [euclid, Fin.sum_univ_succ, Fin.sum_univ_zero] at hle
  rw [Complex.normSq_ofReal, Complex.normSq_ofReal, add_zero, add_zero, Real.sqrt_mul_self_eq_abs,
    Real.sqrt_mul_self_eq_abs] at hle
  have h8 : |(-(3 / 2) : ℝ)| = 3 / 2 := by norm_num [abs_of_nonneg]
  rw [h8] at hle
  obtain ⟨h9, h10⟩ := abs_le.mp hle
  constructor <;> linarith

theorem tilt_call (sm : Unit) : ∃ (u : Fin 1 → ℝ) (at₁ : TdvpAttrs 0), u 0 ≤ -(5 / 4) ∧
    (tdvpCall tiltEnv tiltCfg 0 (List.ofFn fun _ : Fin 1 => Real.log 2) 0 (some 0) sm {}).call
      (nqsRun (.real [[Real.log 2]]) [.eval]) = (.ok (some u, at₁, ()), nqsRun (.real [[Real.log 2]]) [.eval]) ∧
    ∃ E, at₁.eloc0 = some (some (E, 9 / 25)) := by
  have hp : paramUnflatten (Params.real [[Real.log 2]]).isReal (Params.real [[Real.log 2]]).sizes
      (List.ofFn fun _ : Fin 1 => Real.log 2) = .ok (.real [[Real.log 2]]) := by
    have := flattenParams_unflatten (.real [[Real.log 2]])
    simpa [flattenParams, Params.isReal, Params.sizes] using this
  have hm : tiltEnv.measure (.real [[Real.log 2]]) sm 0 = .ok (tiltJoint, ()) := by
    have := tilt_joint (fun _ => Real.log 2) rfl
    rw [← this]
    simp [tiltEnv, flattenParams]
  have h1 : ∀ rk ∈ tiltJoint, rk ≠ [] := by simp [tiltJoint]
  have h2 : ∀ s ∈ allSamples tiltJoint, 0 ≤ s.1 := by
    rw [tiltSamples]
    norm_num
  have h3 : 0 < List.length tiltJoint := by simp [tiltJoint]
  obtain ⟨E, G, hi⟩ := tdvpInput_exists tiltJoint 0 h1 h2 h3
  have hinit : nqsRun (.real [[Real.log 2]]) [.eval] ≠ none :=
    (c25_initialised_iff _ _).mpr ⟨.eval, List.mem_singleton_self _, rfl⟩
  obtain ⟨u', at₁, hc⟩ := c44_returns tiltEnv tiltCfg (by norm_num [tiltCfg]) (by norm_num [tiltCfg])
    (by norm_num [tiltCfg]) 0 (List.ofFn fun _ : Fin 1 => Real.log 2) 0 (some 0) sm () {} (.real [[Real.log 2]]) [.eval]
    (by simp [NqsOp.Fits]) hinit _ hp tiltJoint hm h1 h2 h3
  obtain ⟨st, hst⟩ := Option.ne_none_iff_exists'.mp hinit
  have hw := wf_run _ _ (by simp [NqsOp.Fits]) st hst
  have hp' : paramUnflatten st.realParams st.sizes (List.ofFn fun _ : Fin 1 => Real.log 2)
      = .ok (.real [[Real.log 2]]) := by
    rw [hw.1, hw.2.1]
    exact hp
  rw [hst] at hc ⊢
  obtain ⟨u, huu, hu5⟩ : ∃ u, u' = some u ∧ u 0 ≤ -(5 / 4) := by
    obtain ⟨q, joint₂, E', G', res', atS', p', hq', hm₂, hd, hs, -, -, -, hz⟩ :=
      tdvpCall_ok tiltEnv tiltCfg 0 _ 0 (some 0) sm () {} at₁ st (some st) u' hc
    obtain rfl := Except.ok.inj (hp'.symm.trans hq')
    rw [hm] at hm₂
    obtain ⟨rfl, -⟩ := Prod.mk.inj (Except.ok.inj hm₂)
    obtain ⟨err, -, hf, -⟩ := hz rfl
    obtain rfl : E' = E := Except.ok.inj (hd.1.symm.trans hi.data.1)
    obtain rfl : G' = G := Except.ok.inj (hd.2.symm.trans hi.data.2)
    obtain ⟨u, hu, hu5, -⟩ := tilt_solve E' G' hi res' {} atS' hs
    exact ⟨u, by rw [(hf rfl).1, hu], hu5⟩
  subst huu
  have hv := call_variance tiltEnv tiltCfg 0 _ 0 sm () {} at₁ st (some st) _ _ hp' tiltJoint hm h1 h2 h3 hc
  have hvar : wVar ((allSamples tiltJoint).map fun s => (s.1, s.2.1)) 0 = 9 / 25 := by
    rw [tiltSamples]
    simp [wVar, wMean]
    norm_num
  rw [hvar] at hv
  exact ⟨u, at₁, hu5, hc, _, hv.1⟩

theorem tilt_spread (a : ℝ) : spread tiltMatrix (fun c => Complex.exp (tiltLog (fun _ => a) c))
    = 1 - (2 * Real.exp a / (1 + Real.exp a ^ 2)) ^ 2 := by
  rw [tilt_psi]
  have := Real.exp_pos a
  have h0 : (1 + Real.exp a ^ 2) ≠ 0 := by positivity
  simp [spread, expect, norm2, tiltMatrix, Matrix.mulVec, dotProduct, Fin.sum_univ_two, -Complex.ofReal_exp]
  have e1 : (-((Real.exp a : ℝ) : ℂ) + -((Real.exp a : ℝ) : ℂ)) = ((-2 * Real.exp a : ℝ) : ℂ) := by
    push_cast
    ring
  have e2 : (1 + ((Real.exp a : ℝ) : ℂ) * ((Real.exp a : ℝ) : ℂ)) = ((1 + Real.exp a ^ 2 : ℝ) : ℂ) := by
    push_cast
    ring
  rw [e1, e2, Complex.normSq_ofReal, Complex.normSq_ofReal]
  have h1 : (1 + Real.exp a * Real.exp a) ≠ 0 := by positivity
  field_simp
  ring

/-- A search that stops after one step. -/
theorem tilt_search : ∃ (s : GsState Unit (NqsState × TdvpAttrs 0 × Unit)) (θ : Fin 1 → ℝ),
    groundStateSearch (tdvpApi tiltEnv tiltCfg 0 fun _ _ => .ok ((), ())) 10 (1 / 2) 2 false tiltCfg.diagonalShift
      (nqsRun (.real [[Real.log 2]]) [.eval], {}, ()) = .ok s ∧
    (s.n : ℤ) < 10 ∧ (getParameters.call s.w.1).1 = .ok (some (List.ofFn θ)) ∧
    1 / 2 < spread tiltMatrix fun c => Complex.exp (tiltLog θ c) := by
  obtain ⟨u, at₁, hu, hc, E, hE⟩ := tilt_call ()
  have hinit : nqsRun (.real [[Real.log 2]]) [.eval] ≠ none :=
    (c25_initialised_iff _ _).mpr ⟨.eval, List.mem_singleton_self _, rfl⟩
  obtain ⟨st, hst⟩ := Option.ne_none_iff_exists'.mp hinit
  have hw := wf_run _ _ (by simp [NqsOp.Fits]) st hst
  have hget : (getParameters.call (some st)).1 = .ok (some [Real.log 2]) := by
    rw [← hst]
    rfl
  obtain ⟨q, hq, -, -, hq3⟩ := paramUnflatten_ok st.realParams st.sizes
    (List.ofFn ((fun _ : Fin 1 => Real.log 2) + (2 : ℝ) • u)) (by rw [List.length_ofFn, hw.1, hw.2.1]; rfl)
  have hset : (setParameters (.vec (List.ofFn ((fun _ : Fin 1 => Real.log 2) + (2 : ℝ) • u)))).call (some st)
      = (.ok (), some { st with params := q }) := by
    rw [call_setVec, hq]
  refine ⟨⟨1, some (9 / 25), some (0.95 * 0), 0.95 * 0, (some { st with params := q }, at₁, ()), []⟩,
    (fun _ : Fin 1 => Real.log 2) + (2 : ℝ) • u, ?_, by norm_num, ?_, ?_⟩
  · rw [hst] at hc ⊢
    have h1 : (tdvpApi tiltEnv tiltCfg 0 fun _ _ => Except.ok ((), ())).getParams (some st, {}, ())
        = .ok fun _ => Real.log 2 := by
      simp only [tdvpApi, hget]
      rw [dif_pos (by simp)]
      congr 1
      funext i
      rw [Fin.fin_one_eq_zero i]
      rfl
    have h2 : (tdvpApi tiltEnv tiltCfg 0 fun _ _ => Except.ok ((), ())).rhs 0 (fun _ => Real.log 2) 0 (some st, {}, ())
        = .ok (u, (some st, at₁, ())) := by
      simp only [tdvpApi]
      rw [show ({ tiltCfg with diagonalShift := 0 } : TdvpCfg 0) = tiltCfg from rfl, hc]
    have h3 : (tdvpApi tiltEnv tiltCfg 0 fun _ _ => Except.ok ((), ())).setParams
        ((fun _ : Fin 1 => Real.log 2) + (2 : ℝ) • u) (some st, at₁, ())
        = .ok (some { st with params := q }, at₁, ()) := by
      simp only [tdvpApi]
      rw [hset]
    have h4 : (tdvpApi tiltEnv tiltCfg 0 fun _ _ => Except.ok ((), ())).variance (some { st with params := q }, at₁, ())
        = .ok (some (9 / 25)) := by
      simp only [tdvpApi, hE]
      rfl
    have h5 : gsBody (tdvpApi tiltEnv tiltCfg 0 fun _ _ => Except.ok ((), ())) 2 false
        ⟨0, some 1, some 0, 0, (some st, {}, ()), []⟩
        = .ok ⟨1, some (9 / 25), some (0.95 * 0), 0.95 * 0, (some { st with params := q }, at₁, ()), []⟩ := by
      simp only [gsBody, h1, h2, h3, h4, bind, Except.bind, gsMeasure]
      rfl
    change gsLoop (tdvpApi tiltEnv tiltCfg 0 fun _ _ => Except.ok ((), ())) 10 (1 / 2) 2 false 10
      ⟨0, some 1, some 0, 0, (some st, {}, ()), []⟩ = _
    rw [gsLoop, if_pos (by norm_num [gsCond]), h5]
    change gsLoop _ 10 (1 / 2) 2 false 9 _ = _
    rw [gsLoop, if_neg (by norm_num [gsCond])]
  · change Except.ok (some (flattenParams q)) = _
    rw [hq3]
  · have ha : (fun _ : Fin 1 => Real.log 2) + (2 : ℝ) • u = fun _ : Fin 1 => Real.log 2 + 2 * u 0 := by
      funext i
      rw [Fin.fin_one_eq_zero i]
      rfl
    rw [ha, tilt_spread]
    have hx : Real.exp (Real.log 2 + 2 * u 0) ≤ 1 / 4 := by
      have : Real.log 2 + 2 * u 0 ≤ Real.log (1 / 4) := by
        have h4 : Real.log (1 / 4) = -(2 * Real.log 2) := by
          rw [show (1 / 4 : ℝ) = (2 ^ 2)⁻¹ by norm_num, Real.log_inv, Real.log_pow]
          norm_num
        have := Real.log_two_lt_d9
        rw [h4]
        linarith
      calc _ ≤ Real.exp (Real.log (1 / 4)) := Real.exp_le_exp.mpr this
        _ = _ := Real.exp_log (by norm_num)
    have hx0 := Real.exp_pos (Real.log 2 + 2 * u 0)
    generalize Real.exp (Real.log 2 + 2 * u 0) = x at hx hx0
    have h1 : 2 * x / (1 + x ^ 2) ≤ 1 / 2 := by
      rw [div_le_iff₀ (by positivity)]
      nlinarith [sq_nonneg x]
    have h2 : 0 ≤ 2 * x / (1 + x ^ 2) := by positivity
    nlinarith

/-- C98 is false of the state that `ground_state_search` leaves behind: the search below stops because the
variance is below the tolerance, but the parameters have moved on, to a state whose variance is above it. -/
theorem c98_final_violated : ∃ (env : TdvpEnv 0 Unit) (cfg : TdvpCfg 0) (s : GsState Unit (NqsState × TdvpAttrs 0 × Unit))
    (θ : Fin 1 → ℝ), ExactlySampled tiltKernel tiltMatrix tiltLog env 0 ∧ EighCorrect cfg ∧
    groundStateSearch (tdvpApi env cfg 0 fun _ _ => .ok ((), ())) 10 (1 / 2) 2 false cfg.diagonalShift
      (nqsRun (.real [[Real.log 2]]) [.eval], {}, ()) = .ok s ∧
    (s.n : ℤ) < 10 ∧ (getParameters.call s.w.1).1 = .ok (some (List.ofFn θ)) ∧
    1 / 2 < spread tiltMatrix fun c => Complex.exp (tiltLog θ c) := by
  obtain ⟨s, θ, h⟩ := tilt_search
  exact ⟨tiltEnv, tiltCfg, s, θ, tilt_sampled, someEigh_correct _ rfl, h⟩

/-- The ground state of the spin. -/
theorem tilt_ground : GroundState tiltMatrix (-1) 1 ![1, 1] := by
  refine ⟨⟨fun h => one_ne_zero (congrFun h 0), ?_⟩, by norm_num, ?_⟩
  · intro s
    fin_cases s <;> simp [tiltMatrix, Matrix.mulVec, dotProduct, Fin.sum_univ_two]
  · rintro e w ⟨hw, hl⟩ ho
    have h0 := hl 0
    simp [tiltMatrix, Matrix.mulVec, dotProduct, Fin.sum_univ_two] at h0 ho
    have h1 : w 1 = -w 0 := by linear_combination ho
    rw [h1, neg_neg] at h0
    by_cases h2 : w 0 = 0
    · exact absurd (funext fun s => by fin_cases s <;> simp [h1, h2]) hw
    · have h3 : (e : ℂ) = 1 := by
        apply mul_right_cancel₀ h2
        rw [one_mul]
        exact h0.symm
      exact le_of_eq (by exact_mod_cast h3.symm)

/-- Case for `c98_level`, `c98_variational` and `c98_ground_state`: the state `(1, 2)`. -/
example : (∃ e v, Level tiltMatrix e v ∧ |e - (expect tiltMatrix ![1, 2]).re| ≤ √(9 / 25)) ∧
    stateDistance ![1, 1] ![1, 2] ^ 2 ≤ 1 / 10 := by
  have hne : (![1, 2] : Fin 2 → ℂ) ≠ 0 := fun h => one_ne_zero (congrFun h 0)
  have hO := (tilt_step fun _ => 0).hermitian
  have hE : (expect tiltMatrix ![1, 2]).re = -(4 / 5) := by
    rw [show expect tiltMatrix ![1, 2] = (((-(4 / 5) : ℝ)) : ℂ) by
      simp [expect, norm2, tiltMatrix, Matrix.mulVec, dotProduct, Fin.sum_univ_two]
      norm_num [Complex.conj_ofNat], Complex.ofReal_re]
  have hS : spread tiltMatrix ![1, 2] = 9 / 25 := by
    have h := tilt_spread (Real.log 2)
    rw [tilt_psi, Real.exp_log (by norm_num)] at h
    push_cast at h
    rw [h]
    norm_num
  constructor
  · have := c98_level hO ![1, 2] hne
    rwa [hS] at this
  · have := c98_ground_state hO ![1, 2] hne tilt_ground
    rw [hE] at this
    linarith

/-- Case for `c98_reported` and `c98_call`. -/
example : ∃ (at₁ : TdvpAttrs 0) (E : ℂ), at₁.eloc0 = some (some (E, 9 / 25)) ∧
    stateDistance ![1, 1] (fun c => Complex.exp (tiltLog (fun _ => Real.log 2) c)) ^ 2 ≤ (E.re + 1) / 2 := by
  obtain ⟨u, at₁, -, hc, E, hE⟩ := tilt_call ()
  obtain ⟨E', var, hE', -, -, hg⟩ := c98_call tiltLog tiltEnv 0 tilt_sampled tiltCfg (.real [[Real.log 2]]) rfl [.eval]
    (by simp [NqsOp.Fits]) ((c25_initialised_iff _ _).mpr ⟨.eval, List.mem_singleton_self _, rfl⟩) _ 0 () () {} at₁ _ _ hc
  have h1 := hE.symm.trans hE'
  obtain ⟨rfl, -⟩ := Prod.mk.inj (Option.some.inj (Option.some.inj h1))
  refine ⟨at₁, E, hE, (hg _ _ _ tilt_ground).trans (le_of_eq ?_)⟩
  norm_num

/-- Case for `c98_search_partial`: the search of `c98_final_violated`. -/
example : ∃ (s : GsState Unit (NqsState × TdvpAttrs 0 × Unit)) (E : ℂ) (e : ℝ) (v : Fin 2 → ℂ),
    (∃ var, s.w.2.1.eloc0 = some (some (E, var))) ∧ Level tiltMatrix e v ∧ |e - E.re| ≤ √(1 / 2) := by
  obtain ⟨s, -, hs, hn, -⟩ := tilt_search
  obtain ⟨-, -, -, E, var, hE, -, -, -, e, v, hl, hd⟩ := c98_search_partial tiltLog tiltEnv 0 tilt_sampled tiltCfg _
    10 (1 / 2) 2 (by norm_num) false (.real [[Real.log 2]]) rfl [.eval] (by simp [NqsOp.Fits])
    ((c25_initialised_iff _ _).mpr ⟨.eval, List.mem_singleton_self _, rfl⟩) {} () s hs hn
  exact ⟨s, E, e, v, ⟨var, hE⟩, hl, hd⟩

end JVMC
