import Verif.Lemmas.Layout
import Verif.Model.McmcSampling
import Verif.Props.Variational

/-!
# C103: results do not depend on where the samples are

Also C47 for every cutoff: MinSR is the truncated pseudo-inverse solution of the equation of stochastic
reconfiguration.
-/

namespace JVMC

open Spec Matrix

variable {n : ℕ}

theorem SameSamples.weighted {A : Type} {w w' : World (ℝ × A)} (h : SameSamples w w') :
    SameWeighted w w' := List.Perm.filter _ h

/-! ## MinSR and stochastic reconfiguration -/

/-- C47, for every cutoff: the update of MinSR, which is computed from the kernel of the samples, is
`-S⁺ F` with the Fisher matrix `S` and the force `F`, where the pseudo-inverse drops the eigenvalues of
`S` that are at most `pinvTol` times the largest. `ev` and `V` are any eigenvalues and eigenvectors of
`S`. -/
theorem c47_truncated (cfg : MinSRCfg) (heigh : cfg.EighCorrect) (r : ℕ)
    (joint : World (ℝ × (Fin 1 → ℂ) × (Fin (n + 1) → ℂ))) (E : SObs (Fin 1)) (G : SObs (Fin (n + 1)))
    (hi : TdvpInput joint r E G) (x : Fin (n + 1) → ℂ) (hx : minsrSolve cfg r E G = .ok x)
    (ev : Fin (n + 1) → ℝ) (V : Matrix (Fin (n + 1)) (Fin (n + 1)) ℂ)
    (h : IsEigh (Matrix.of (fisherOf (allSamples joint))) ev V) (i : Fin (n + 1)) :
    x i = -∑ k, V i k * (((if |ev k| > cfg.pinvTol * ⨆ j, |ev j| then 1 / ev k else 0 : ℝ) : ℂ)
      * ∑ j, (starRingEnd ℂ) (V j k) * forceOf (allSamples joint) j) := by
  obtain rfl := Except.ok.inj ((minsrSolve_eq cfg r joint E G hi).symm.trans hx)
  set l := allSamples joint
  have hS : Matrix.of (fisherOf l) = (sampleX l)ᴴ * sampleX l := by
    ext i j
    exact fisherOf_eq l hi.weights i j
  have hF : forceOf l = (sampleX l)ᴴ *ᵥ sampleE l := funext (forceOf_eq l hi.weights)
  rw [hS] at h
  have he := heigh _ _ (kernel_hermitian l)
  rw [kernelOf_eq] at he
  obtain ⟨hf, hs⟩ := push_through (sampleX l) _ _ ev V he h
  have key : (sampleX l)ᴴ * pinvHermitian cfg.eigh cfg.pinvTol (kernelOf l)
      = V * Matrix.diagonal (fun k => ((if |ev k| > cfg.pinvTol * ⨆ j, |ev j| then 1 / ev k else 0 : ℝ) : ℂ))
        * Vᴴ * (sampleX l)ᴴ := by
    rw [kernelOf_eq]
    unfold pinvHermitian
    dsimp only
    rw [hs]
    exact hf fun x => if |x| > cfg.pinvTol * ⨆ j, |ev j| then 1 / x else 0
  rw [Matrix.mulVec_mulVec, key, ← Matrix.mulVec_mulVec, ← hF, Pi.neg_apply, Matrix.mul_assoc,
    ← Matrix.mulVec_mulVec, ← Matrix.mulVec_mulVec]
  congr 1
  change ∑ k, V i k * (Matrix.diagonal _ *ᵥ (Vᴴ *ᵥ forceOf l)) k = _
  refine Finset.sum_congr rfl fun k _ => ?_
  rw [Matrix.mulVec_diagonal]
  rfl

/-- Case: the hypotheses for two samples, with the default `pinvTol`. -/
example : ∃ (cfg : MinSRCfg) (E : SObs (Fin 1)) (G : SObs (Fin 1)) (ev : Fin 1 → ℝ)
    (V : Matrix (Fin 1) (Fin 1) ℂ), cfg.EighCorrect ∧ TdvpInput (pairJoint 1) 0 E G ∧
      (∃ x, minsrSolve cfg 0 E G = .ok x) ∧ IsEigh (Matrix.of (fisherOf (allSamples (pairJoint 1)))) ev V := by
  obtain ⟨E, G, h⟩ := pair_input 1
  have hS : Matrix.of (fisherOf (allSamples (pairJoint 1)))
      = (sampleX (allSamples (pairJoint 1)))ᴴ * sampleX (allSamples (pairJoint 1)) := by
    ext i j
    exact fisherOf_eq _ h.weights i j
  obtain ⟨ev, V, hV⟩ := exists_eigh (Matrix.of (fisherOf (allSamples (pairJoint 1)))) (by
    rw [hS]
    exact Matrix.isHermitian_conjTranspose_mul_self _)
  exact ⟨⟨1e-14, "real", fun _ => someEigh⟩, E, G, ev, V, minsrEigh_correct _ rfl, h,
    c47_returns _ _ _ _ _ h, hV⟩

/-! ## Layouts -/

/-- `MinSR.solve` on any rank of any layout of the same samples. -/
theorem minsrSolve_layout (cfg : MinSRCfg) (heigh : cfg.EighCorrect) (r r' : ℕ)
    (joint joint' : World (ℝ × (Fin 1 → ℂ) × (Fin (n + 1) → ℂ))) (E E' : SObs (Fin 1))
    (G G' : SObs (Fin (n + 1))) (hi : TdvpInput joint r E G) (hi' : TdvpInput joint' r' E' G')
    (hp : SameWeighted joint joint') : minsrSolve cfg r E G = minsrSolve cfg r' E' G' := by
  obtain ⟨x, hx⟩ := c47_returns cfg r joint E G hi
  obtain ⟨x', hx'⟩ := c47_returns cfg r' joint' E' G' hi'
  have hS : Matrix.of (fisherOf (allSamples joint))
      = (sampleX (allSamples joint))ᴴ * sampleX (allSamples joint) := by
    ext i j
    exact fisherOf_eq _ hi.weights i j
  obtain ⟨ev, V, hV⟩ := exists_eigh (Matrix.of (fisherOf (allSamples joint))) (by
    rw [hS]
    exact Matrix.isHermitian_conjTranspose_mul_self _)
  have hV' := hV
  rw [show fisherOf (allSamples joint) = fisherOf (allSamples joint') from
    funext fun i => funext fun j => fisherOf_padded hp i j] at hV'
  rw [hx, hx']
  congr 1
  funext i
  rw [c47_truncated cfg heigh r joint E G hi x hx ev V hV i,
    c47_truncated cfg heigh r' joint' E' G' hi' x' hx' ev V hV' i]
  simp only [forceOf_padded hp]

/-- What a call without cross validation does, when the samples are known. -/
theorem tdvpCall_plain {smp : Type} (env : TdvpEnv n smp) (cfg : TdvpCfg n) (hcv : cfg.crossValidation = false)
    (r : ℕ) (netP : List ℝ) (t : ℝ) (k : Option ℕ) (sm sm₁ sm₂ : smp) (at₀ a : TdvpAttrs n) (st : NqsInit)
    (st' : NqsState) (u : Flt (Fin (n + 1) → ℝ)) (p : Params)
    (hp : paramUnflatten st.realParams st.sizes netP = .ok p)
    (joint : World (ℝ × (Fin 1 → ℂ) × (Fin (n + 1) → ℂ))) (hm : env.measure p sm t = .ok (joint, sm₁))
    (h : (tdvpCall env cfg r netP t k sm at₀).call (some st) = (.ok (u, a, sm₂), st')) :
    ∃ E G res atS, IsTdvpData joint E G ∧ tdvpSolve cfg r (some (E, G)) at₀ = .ok (res, atS) ∧
      u = res.update ∧ (k ≠ some 0 → a = atS) ∧
      (k = some 0 → ∃ err, getTdvpError { atS with eloc0 := atS.eqn.map fun e => e.map fun x =>
          (x.elocMean, x.elocVar) } res.update = .ok err ∧ a = { atS with
          eloc0 := atS.eqn.map fun e => e.map fun x => (x.elocMean, x.elocVar)
          metaData := some ⟨err, res.residual, res.cutoff, atS.snr.getD fun _ => .nan,
            (atS.spectrum.getD none).map fun sp => sp.ev, none⟩ }) := by
  obtain ⟨q, j, E, G, res, atS, -, hq, hj, hd, hs, -, -, hn, hz⟩ :=
    tdvpCall_ok env _ r netP t k sm sm₂ at₀ a st _ u h
  obtain rfl := Except.ok.inj (hp.symm.trans hq)
  obtain ⟨rfl, -⟩ := Prod.mk.inj (Except.ok.inj (hm.symm.trans hj))
  refine ⟨E, G, res, atS, hd, hs, ?_, fun hk => (hn hk).2, fun hk => ?_⟩
  · by_cases hk : k = some 0
    · obtain ⟨err, -, hz, -⟩ := hz hk
      exact (hz hcv).1
    · exact (hn hk).1
  · obtain ⟨err, he, hz, -⟩ := hz hk
    exact ⟨err, he, (hz hcv).2⟩

/-- A call of a `TDVP` object returns the same update on every rank of every layout of the same samples,
leaves the same attributes, and reports the same metadata (apart from the two numbers of the cross
validation, which is done on subsets of the samples of every device). -/
theorem c103_tdvp {smp smp' : Type} (env : TdvpEnv n smp) (env' : TdvpEnv n smp') (cfg : TdvpCfg n)
    (hc : 0 < cfg.pinvCutoff) (hc' : cfg.pinvCutoff < 1e-2) (ht : cfg.pinvTol < 1)
    (netP : List ℝ) (t : ℝ) (k : Option ℕ) (sm sm₁ : smp) (sm' sm₁' : smp') (at₀ : TdvpAttrs n)
    (p₀ : Params) (ops : List NqsOp) (hops : ∀ op ∈ ops, op.Fits p₀) (hinit : nqsRun p₀ ops ≠ none)
    (p : Params) (hp : paramUnflatten p₀.isReal p₀.sizes netP = .ok p)
    (joint joint' : World (ℝ × (Fin 1 → ℂ) × (Fin (n + 1) → ℂ)))
    (hm : env.measure p sm t = .ok (joint, sm₁)) (hm' : env'.measure p sm' t = .ok (joint', sm₁'))
    (hsame : SameSamples joint joint')
    (h1 : ∀ rk ∈ joint, rk ≠ []) (h1' : ∀ rk ∈ joint', rk ≠ []) (h2 : ∀ s ∈ allSamples joint, 0 ≤ s.1)
    (r r' : ℕ) (h3 : r < List.length joint) (h3' : r' < List.length joint') :
    ∃ (u : Flt (Fin (n + 1) → ℝ)) (at₁ at₁' : TdvpAttrs n),
      (tdvpCall env cfg r netP t k sm at₀).call (nqsRun p₀ ops) = (.ok (u, at₁, sm₁), nqsRun p₀ ops) ∧
      (tdvpCall env' cfg r' netP t k sm' at₀).call (nqsRun p₀ ops) = (.ok (u, at₁', sm₁'), nqsRun p₀ ops) ∧
      (cfg.crossValidation = false → at₁' = at₁) ∧
      at₁'.S = at₁.S ∧ at₁'.eqn = at₁.eqn ∧ at₁'.spectrum = at₁.spectrum ∧ at₁'.snr = at₁.snr ∧
      at₁'.eloc0 = at₁.eloc0 ∧
      at₁'.metaData.map (fun m => { m with crossValidation := none })
        = at₁.metaData.map (fun m => { m with crossValidation := none }) := by
  have h2' : ∀ s ∈ allSamples joint', 0 ≤ s.1 := fun s hs => h2 s (hsame.mem_iff.mpr hs)
  cases hst : nqsRun p₀ ops with
  | none => exact absurd hst hinit
  | some st =>
    have hw := wf_run p₀ ops hops st hst
    have hpp : paramUnflatten st.realParams st.sizes netP = .ok p := by rw [hw.1, hw.2.1, hp]
    obtain ⟨u, a, e⟩ := c44_returns env { cfg with crossValidation := false } hc hc' ht r netP t k sm sm₁
      at₀ p₀ ops hops hinit p hp joint hm h1 h2 h3
    obtain ⟨u', a', e'⟩ := c44_returns env' { cfg with crossValidation := false } hc hc' ht r' netP t k
      sm' sm₁' at₀ p₀ ops hops hinit p hp joint' hm' h1' h2' h3'
    rw [hst] at e e'
    obtain ⟨rfl, rfl⟩ : u' = u ∧ a' = a := by
      obtain ⟨E, G, res, atS, hd, hs, hu, hn, hz⟩ := tdvpCall_plain env _ rfl r netP t k sm sm₁ sm₁ at₀ a st
        _ u p hpp joint hm e
      obtain ⟨E', G', res', atS', hd', hs', hu', hn', hz'⟩ := tdvpCall_plain env' _ rfl r' netP t k sm' sm₁'
        sm₁' at₀ a' st _ u' p hpp joint' hm' e'
      rw [← tdvpSolve_layout _ r r' joint joint' E E' G G' ⟨h1, h2, h3, hd⟩ ⟨h1', h2', h3', hd'⟩ hsame at₀,
        hs] at hs'
      obtain ⟨rfl, rfl⟩ := Prod.mk.inj (Except.ok.inj hs')
      refine ⟨hu'.trans hu.symm, ?_⟩
      by_cases hk : k = some 0
      · obtain ⟨err, h4, h5⟩ := hz hk
        obtain ⟨err', h4', h5'⟩ := hz' hk
        obtain rfl := Except.ok.inj (h4.symm.trans h4')
        exact h5'.trans h5.symm
      · exact (hn' hk).trans (hn hk).symm
    cases hcv : cfg.crossValidation with
    | false =>
      have hcfg : { cfg with crossValidation := false } = cfg := by rw [← hcv]
      rw [hcfg] at e e'
      exact ⟨u', a', a', e, e', fun _ => rfl, rfl, rfl, rfl, rfl, rfl, rfl⟩
    | true =>
      have hcfg : { cfg with crossValidation := true } = cfg := by rw [← hcv]
      obtain ⟨v, b, f⟩ := c44_returns env cfg hc hc' ht r netP t k sm sm₁
        at₀ p₀ ops hops hinit p hp joint hm h1 h2 h3
      obtain ⟨v', b', f'⟩ := c44_returns env' cfg hc hc' ht r' netP t k sm' sm₁'
        at₀ p₀ ops hops hinit p hp joint' hm' h1' h2' h3'
      rw [hst] at f f'
      obtain ⟨g1, -, -, g2, g3, g4, g5, g6, g7⟩ := c44_cross_validation env cfg r netP t k sm sm₁ sm₁ at₀ a' b
        st _ _ u' v e (by rw [hcfg]; exact f)
      obtain ⟨g1', -, -, g2', g3', g4', g5', g6', g7'⟩ := c44_cross_validation env' cfg r' netP t k sm' sm₁'
        sm₁' at₀ a' b' st _ _ u' v' e' (by rw [hcfg]; exact f')
      rw [g1] at f
      rw [g1'] at f'
      exact ⟨u', b, b', f, f', fun h => (by cases h), g2'.trans g2.symm, g3'.trans g3.symm, g4'.trans g4.symm,
        g5'.trans g5.symm, g6'.trans g6.symm, g7'.trans g7.symm⟩

/-- With the exact sampler, padding does not matter: the update, the attributes and the metadata are the
same for layouts with different numbers of samples without weight (apart from the signal-to-noise ratio,
which is NaN if there are such samples, and which is not used). -/
theorem c103_tdvp_padded {smp smp' : Type} (env : TdvpEnv n smp) (env' : TdvpEnv n smp') (cfg : TdvpCfg n)
    (hx : cfg.isExact = true) (hcv : cfg.crossValidation = false)
    (hc : 0 < cfg.pinvCutoff) (hc' : cfg.pinvCutoff < 1e-2) (ht : cfg.pinvTol < 1)
    (netP : List ℝ) (t : ℝ) (k : Option ℕ) (sm sm₁ : smp) (sm' sm₁' : smp') (at₀ : TdvpAttrs n)
    (p₀ : Params) (ops : List NqsOp) (hops : ∀ op ∈ ops, op.Fits p₀) (hinit : nqsRun p₀ ops ≠ none)
    (p : Params) (hp : paramUnflatten p₀.isReal p₀.sizes netP = .ok p)
    (joint joint' : World (ℝ × (Fin 1 → ℂ) × (Fin (n + 1) → ℂ)))
    (hm : env.measure p sm t = .ok (joint, sm₁)) (hm' : env'.measure p sm' t = .ok (joint', sm₁'))
    (hsame : SameWeighted joint joint')
    (h1 : ∀ rk ∈ joint, rk ≠ []) (h1' : ∀ rk ∈ joint', rk ≠ []) (h2 : ∀ s ∈ allSamples joint, 0 ≤ s.1)
    (h2' : ∀ s ∈ allSamples joint', 0 ≤ s.1)
    (r r' : ℕ) (h3 : r < List.length joint) (h3' : r' < List.length joint') :
    ∃ (u : Flt (Fin (n + 1) → ℝ)) (at₁ at₁' : TdvpAttrs n),
      (tdvpCall env cfg r netP t k sm at₀).call (nqsRun p₀ ops) = (.ok (u, at₁, sm₁), nqsRun p₀ ops) ∧
      (tdvpCall env' cfg r' netP t k sm' at₀).call (nqsRun p₀ ops) = (.ok (u, at₁', sm₁'), nqsRun p₀ ops) ∧
      at₁'.S = at₁.S ∧ at₁'.eqn = at₁.eqn ∧ at₁'.spectrum = at₁.spectrum ∧ at₁'.eloc0 = at₁.eloc0 ∧
      (k = some 0 → at₁'.metaData.map (fun m => { m with snr := fun _ => .nan })
        = at₁.metaData.map (fun m => { m with snr := fun _ => .nan })) := by
  cases hst : nqsRun p₀ ops with
  | none => exact absurd hst hinit
  | some st =>
    have hw := wf_run p₀ ops hops st hst
    have hpp : paramUnflatten st.realParams st.sizes netP = .ok p := by rw [hw.1, hw.2.1, hp]
    obtain ⟨u, a, e⟩ := c44_returns env cfg hc hc' ht r netP t k sm sm₁
      at₀ p₀ ops hops hinit p hp joint hm h1 h2 h3
    obtain ⟨u', a', e'⟩ := c44_returns env' cfg hc hc' ht r' netP t k
      sm' sm₁' at₀ p₀ ops hops hinit p hp joint' hm' h1' h2' h3'
    rw [hst] at e e'
    obtain ⟨E, G, res, atS, hd, hs, hu, hn, hz⟩ := tdvpCall_plain env _ hcv r netP t k sm sm₁ sm₁ at₀ a st
      _ u p hpp joint hm e
    obtain ⟨E', G', res', atS', hd', hs', hu', hn', hz'⟩ := tdvpCall_plain env' _ hcv r' netP t k sm' sm₁'
      sm₁' at₀ a' st _ u' p hpp joint' hm' e'
    obtain ⟨snr, hsnr⟩ := tdvpSolve_padded cfg hx r r' joint joint' E E' G G' ⟨h1, h2, h3, hd⟩
      ⟨h1', h2', h3', hd'⟩ hsame at₀ res atS hs
    rw [hsnr] at hs'
    obtain ⟨rfl, rfl⟩ := Prod.mk.inj (Except.ok.inj hs')
    obtain rfl : u' = u := hu'.trans hu.symm
    refine ⟨u', a, a', e, e', ?_⟩
    by_cases hk : k = some 0
    · obtain ⟨err, h4, h5⟩ := hz hk
      obtain ⟨err', h4', h5'⟩ := hz' hk
      obtain rfl := Except.ok.inj (h4.symm.trans h4')
      rw [h5, h5']
      exact ⟨rfl, rfl, rfl, rfl, fun _ => rfl⟩
    · rw [hn hk, hn' hk]
      exact ⟨rfl, rfl, rfl, rfl, fun h => absurd h hk⟩

/-- A call of a `MinSR` object returns the same update on every rank of every layout of the same samples,
and stores the same energy and variance. Samples without weight do not matter. -/
theorem c103_minsr {smp smp' : Type} (env : TdvpEnv n smp) (env' : TdvpEnv n smp') (cfg : MinSRCfg)
    (heigh : cfg.EighCorrect)
    (netP : List ℝ) (t : ℝ) (k : Option ℕ) (sm sm₁ : smp) (sm' sm₁' : smp') (at₀ : MinSRAttrs)
    (p₀ : Params) (ops : List NqsOp) (hops : ∀ op ∈ ops, op.Fits p₀) (hinit : nqsRun p₀ ops ≠ none)
    (p : Params) (hp : paramUnflatten p₀.isReal p₀.sizes netP = .ok p)
    (joint joint' : World (ℝ × (Fin 1 → ℂ) × (Fin (n + 1) → ℂ)))
    (hm : env.measure p sm t = .ok (joint, sm₁)) (hm' : env'.measure p sm' t = .ok (joint', sm₁'))
    (hsame : SameWeighted joint joint')
    (h1 : ∀ rk ∈ joint, rk ≠ []) (h1' : ∀ rk ∈ joint', rk ≠ []) (h2 : ∀ s ∈ allSamples joint, 0 ≤ s.1)
    (h2' : ∀ s ∈ allSamples joint', 0 ≤ s.1)
    (r r' : ℕ) (h3 : r < List.length joint) (h3' : r' < List.length joint') :
    ∃ (u : Fin (n + 1) → ℂ) (at₁ : MinSRAttrs),
      (minsrCall env cfg r netP t k sm at₀).call (nqsRun p₀ ops) = (.ok (u, at₁, sm₁), nqsRun p₀ ops) ∧
      (minsrCall env' cfg r' netP t k sm' at₀).call (nqsRun p₀ ops) = (.ok (u, at₁, sm₁'), nqsRun p₀ ops) := by
  cases hst : nqsRun p₀ ops with
  | none => exact absurd hst hinit
  | some st =>
    have hw := wf_run p₀ ops hops st hst
    have hpp : paramUnflatten st.realParams st.sizes netP = .ok p := by rw [hw.1, hw.2.1, hp]
    obtain ⟨E, G, hi⟩ := tdvpInput_exists joint r h1 h2 h3
    obtain ⟨E', G', hi'⟩ := tdvpInput_exists joint' r' h1' h2' h3'
    obtain ⟨u, hu, e⟩ := c72_call env cfg r netP t k sm sm₁ at₀ p₀ ops hops st hst p hpp joint hm E G hi
    obtain ⟨u', hu', e'⟩ := c72_call env' cfg r' netP t k sm' sm₁' at₀ p₀ ops hops st hst p hpp joint' hm'
      E' G' hi'
    have f := c72_restores env cfg r netP t k sm at₀ p₀ ops hops _ e
    have f' := c72_restores env' cfg r' netP t k sm' at₀ p₀ ops hops _ e'
    rw [← minsrSolve_layout cfg heigh r r' joint joint' E E' G G' hi hi' hsame] at hu'
    obtain rfl := Except.ok.inj (hu.symm.trans hu')
    rw [← wMean_padded hsame fun s => s.1, ← wVar_padded hsame fun s => s.1] at e'
    rw [hst] at e f e' f'
    exact ⟨u, _, Prod.ext e f, Prod.ext e' f'⟩

/-! ## Examples: one rank with two devices against two ranks -/

/-- The samples of `demoJoint` on one rank with three devices, in another order, with one sample without
weight. -/
noncomputable def otherJoint (pad : List (ℝ × (Fin 1 → ℂ) × (Fin 2 → ℂ))) :
    World (ℝ × (Fin 1 → ℂ) × (Fin 2 → ℂ)) :=
  [[[(1 / 4, ![-1], ![Complex.I, 0])], [(1 / 4, ![2], ![0, Complex.I])], (1 / 2, ![1], ![1, 1]) :: pad]]

theorem demo_same : SameSamples demoJoint (otherJoint []) := by
  simp only [SameSamples, demoJoint, otherJoint, allSamples, List.flatten_cons, List.flatten_nil,
    List.append_nil, List.cons_append, List.nil_append]
  exact (List.Perm.trans (.swap _ _ _) ((List.Perm.swap _ _ _).cons _)).trans (.swap _ _ _)

theorem demo_padded : SameWeighted demoJoint (otherJoint [(0, ![5], ![6, 7])]) := by
  have h := SameSamples.weighted demo_same
  unfold SameWeighted at h ⊢
  refine h.trans (List.Perm.of_eq ?_)
  simp [otherJoint, allSamples]

theorem otherJoint_ok (pad : List (ℝ × (Fin 1 → ℂ) × (Fin 2 → ℂ))) (hp : ∀ s ∈ pad, 0 ≤ s.1) :
    (∀ rk ∈ otherJoint pad, rk ≠ []) ∧ (∀ s ∈ allSamples (otherJoint pad), 0 ≤ s.1) ∧
      0 < List.length (otherJoint pad) := by
  refine ⟨by simp [otherJoint], ?_, by simp [otherJoint]⟩
  intro s hs
  simp only [otherJoint, allSamples, List.flatten_cons, List.flatten_nil, List.append_nil, List.cons_append,
    List.nil_append, List.mem_cons] at hs
  rcases hs with rfl | rfl | rfl | hs
  · norm_num
  · norm_num
  · norm_num
  · exact hp s hs

theorem demoJoint_ok : (∀ rk ∈ demoJoint, rk ≠ []) ∧ (∀ s ∈ allSamples demoJoint, 0 ≤ s.1) ∧
    1 < List.length demoJoint := by
  obtain ⟨E, G, hi⟩ := demo_input
  exact ⟨hi.1, hi.2, hi.3⟩

/-- A sampler that returns the given samples. -/
def fixedEnv (joint : World (ℝ × (Fin 1 → ℂ) × (Fin (n + 1) → ℂ))) : TdvpEnv n Unit :=
  ⟨fun _ _ _ => .ok (joint, ())⟩

/-- Case: rank 1 of two ranks, and one rank with three devices. -/
example : ∃ u at₁ at₁', (tdvpCall (fixedEnv demoJoint) demoCfg 1 [3, 4] 0 (some 0) () {}).call
      (nqsRun (.real [[1, 2]]) [.eval]) = (.ok (u, at₁, ()), nqsRun (.real [[1, 2]]) [.eval]) ∧
    (tdvpCall (fixedEnv (otherJoint [])) demoCfg 0 [3, 4] 0 (some 0) () {}).call
      (nqsRun (.real [[1, 2]]) [.eval]) = (.ok (u, at₁', ()), nqsRun (.real [[1, 2]]) [.eval]) := by
  obtain ⟨u, a, a', h, h', -⟩ := c103_tdvp (fixedEnv demoJoint) (fixedEnv (otherJoint [])) demoCfg
    (by norm_num [demoCfg]) (by norm_num [demoCfg]) (by norm_num [demoCfg]) [3, 4] 0 (some 0) () () () () {}
    (.real [[1, 2]]) [.eval] (by intro op hop; simp at hop; subst hop; trivial) (by intro h; cases h)
    (.real [[3, 4]]) rfl demoJoint (otherJoint []) rfl rfl demo_same demoJoint_ok.1
    (otherJoint_ok [] (by simp)).1 demoJoint_ok.2.1 1 0 demoJoint_ok.2.2 (otherJoint_ok [] (by simp)).2.2
  exact ⟨u, a, a', h, h'⟩

/-- Case: the same with a sample without weight, and exact sampling. -/
example : ∃ u at₁ at₁', (tdvpCall (fixedEnv demoJoint) { demoCfg with isExact := true, crossValidation := false }
      1 [3, 4] 0 (some 0) () {}).call
      (nqsRun (.real [[1, 2]]) [.eval]) = (.ok (u, at₁, ()), nqsRun (.real [[1, 2]]) [.eval]) ∧
    (tdvpCall (fixedEnv (otherJoint [(0, ![5], ![6, 7])])) { demoCfg with isExact := true, crossValidation := false }
      0 [3, 4] 0 (some 0) () {}).call
      (nqsRun (.real [[1, 2]]) [.eval]) = (.ok (u, at₁', ()), nqsRun (.real [[1, 2]]) [.eval]) := by
  have hpad : ∀ s ∈ [((0 : ℝ), (![5] : Fin 1 → ℂ), (![6, 7] : Fin 2 → ℂ))], 0 ≤ s.1 := by simp
  obtain ⟨u, a, a', h, h', -⟩ := c103_tdvp_padded (fixedEnv demoJoint)
    (fixedEnv (otherJoint [(0, ![5], ![6, 7])])) { demoCfg with isExact := true, crossValidation := false } rfl rfl
    (by norm_num [demoCfg]) (by norm_num [demoCfg]) (by norm_num [demoCfg]) [3, 4] 0 (some 0) () () () () {}
    (.real [[1, 2]]) [.eval] (by intro op hop; simp at hop; subst hop; trivial) (by intro h; cases h)
    (.real [[3, 4]]) rfl demoJoint _ rfl rfl demo_padded demoJoint_ok.1
    (otherJoint_ok _ hpad).1 demoJoint_ok.2.1 (otherJoint_ok _ hpad).2.1 1 0 demoJoint_ok.2.2
    (otherJoint_ok _ hpad).2.2
  exact ⟨u, a, a', h, h'⟩

/-- Case: `MinSR`. -/
example : ∃ u at₁, (minsrCall (fixedEnv demoJoint) ⟨1e-3, "real", fun _ => someEigh⟩
      1 [3, 4] 0 (some 0) () none).call
      (nqsRun (.real [[1, 2]]) [.eval]) = (.ok (u, at₁, ()), nqsRun (.real [[1, 2]]) [.eval]) ∧
    (minsrCall (fixedEnv (otherJoint [(0, ![5], ![6, 7])])) ⟨1e-3, "real", fun _ => someEigh⟩
      0 [3, 4] 0 (some 0) () none).call
      (nqsRun (.real [[1, 2]]) [.eval]) = (.ok (u, at₁, ()), nqsRun (.real [[1, 2]]) [.eval]) := by
  have hpad : ∀ s ∈ [((0 : ℝ), (![5] : Fin 1 → ℂ), (![6, 7] : Fin 2 → ℂ))], 0 ≤ s.1 := by simp
  exact c103_minsr (fixedEnv demoJoint)
    (fixedEnv (otherJoint [(0, ![5], ![6, 7])])) ⟨1e-3, "real", fun _ => someEigh⟩ (minsrEigh_correct _ rfl)
    [3, 4] 0 (some 0) () () () () none
    (.real [[1, 2]]) [.eval] (by intro op hop; simp at hop; subst hop; trivial) (by intro h; cases h)
    (.real [[3, 4]]) rfl demoJoint _ rfl rfl demo_padded demoJoint_ok.1
    (otherJoint_ok _ hpad).1 demoJoint_ok.2.1 (otherJoint_ok _ hpad).2.1 1 0 demoJoint_ok.2.2
    (otherJoint_ok _ hpad).2.2

/-! ## Measurements -/

/-- `measure` reports the same mean on every rank of every layout of the same weighted configurations, for
every batch size of the local estimator; with one device per rank in both layouts it also reports the same
variance and the same error. Missing: variance and error with several devices per rank
(`c103_variance_violated`). -/
theorem c103_measure_partial {C : Type} [Fintype C] [DecidableEq C] {kernel : C → List (C × ℂ)}
    {O : Matrix C C ℂ} (hk : OperatorOf kernel O) (psi : Net C) (hlog : psi.logarithmic = true)
    (zeroCfg zeroCfg' : C) (b b' : ℤ) (m : Option ℕ) (w w' : World (C × ℂ × ℝ))
    (hw : SamplesOf psi.val w) (hw' : SamplesOf psi.val w')
    (hsame : ((weighted w).filter fun s => s.1 ≠ 0).Perm ((weighted w').filter fun s => s.1 ≠ 0)) :
    ∃ res res', measureOp kernel psi zeroCfg b m w = .ok res ∧ measureOp kernel psi zeroCfg' b' m w' = .ok res' ∧
      res.length = List.length w ∧ res'.length = List.length w' ∧
      (∀ r ∈ res, ∀ r' ∈ res', r'.mean = r.mean) ∧
      ((∀ rk ∈ w, rk.length = 1) → (∀ rk ∈ w', rk.length = 1) → ∀ r ∈ res, ∀ r' ∈ res', r' = r) := by
  set loc : C → Fin 1 → ℂ := fun c _ => localValue O (fun c => Complex.exp (psi.val c)) c with hloc
  have heq : ∀ v : World (C × ℂ × ℝ), (allSamples (World.map (fun x => (x.2.2, loc x.1)) v))
      = (weighted v).map fun s => (s.1, loc s.2) := by
    intro v
    rw [allSamples_wmap]
    unfold weighted
    rw [List.map_map]
    rfl
  have hmean : wMean (allSamples (World.map (fun x => (x.2.2, loc x.1)) w'))
      = wMean (allSamples (World.map (fun x => (x.2.2, loc x.1)) w)) := by
    rw [heq, heq]
    exact (wMean_padded hsame loc).symm
  have hvar : wVar (allSamples (World.map (fun x => (x.2.2, loc x.1)) w'))
      = wVar (allSamples (World.map (fun x => (x.2.2, loc x.1)) w)) := by
    rw [heq, heq]
    exact (wVar_padded hsame loc).symm
  unfold measureOp
  rw [oLocWorld_eq hk psi hlog zeroCfg b w hw, oLocWorld_eq hk psi hlog zeroCfg' b' w' hw']
  change ∃ res res', measureOne m (World.map (fun x => (x.2.2, loc x.1)) w) = _ ∧
    measureOne m (World.map (fun x => (x.2.2, loc x.1)) w') = _ ∧ _
  obtain ⟨res, h1, h2, h3⟩ := measureOne_mean m _ (World.map_ne (fun x => (x.2.2, loc x.1)) w hw.devices)
  obtain ⟨res', h1', h2', h3'⟩ := measureOne_mean m _ (World.map_ne (fun x => (x.2.2, loc x.1)) w' hw'.devices)
  refine ⟨res, res', h1, h1', by simpa [World.map] using h2, by simpa [World.map] using h2', ?_, ?_⟩
  · intro r hr r' hr'
    rw [h3 r hr, h3' r' hr', hmean]
  · intro hone hone' r hr r' hr'
    have key : ∀ (v : World (C × ℂ × ℝ)) (out : List MeasResult), (∀ rk ∈ v, rk.length = 1) →
        measureOne m (World.map (fun x => (x.2.2, loc x.1)) v) = .ok out → ∀ y ∈ out, y =
          ⟨(wMean (allSamples (World.map (fun x => (x.2.2, loc x.1)) v)) 0).re,
            wVar (allSamples (World.map (fun x => (x.2.2, loc x.1)) v)) 0,
            divSqrtN (Real.sqrt (wVar (allSamples (World.map (fun x => (x.2.2, loc x.1)) v)) 0)) m⟩ := by
      intro v out hv ho y hy
      have hv' : ∀ rk ∈ World.map (fun x => (x.2.2, loc x.1)) v, rk.length = 1 := by
        intro rk hrk
        obtain ⟨rk', h', rfl⟩ := List.mem_map.mp hrk
        rw [List.length_map]
        exact hv rk' h'
      unfold measureOne at ho
      rw [globalMean_eq _ (single_ne _ hv'), c04_global_variance_partial _ hv'] at ho
      change Except.ok _ = Except.ok _ at ho
      rw [List.zipWith_map_left, List.zipWith_map_right, List.zipWith_self] at ho
      obtain rfl := Except.ok.inj ho
      obtain ⟨_, _, rfl⟩ := List.mem_map.mp hy
      rfl
    rw [key w res hone h1 r hr, key w' res' hone' h1' r' hr', hmean, hvar]

/-- `c62_measure_violated`: with several devices per rank the variance depends on the layout. The same two
samples give the variance 1/2 on two devices of one rank, and 1 on one device. -/
theorem c103_variance_violated : ∃ (w w' : World (ℝ × (Fin 1 → ℂ))) (r r' : MeasResult),
    SameSamples w w' ∧ (∀ rk ∈ w, rk ≠ []) ∧ (∀ rk ∈ w', rk ≠ []) ∧
    measureOne (some 2) w = .ok [r] ∧ measureOne (some 2) w' = .ok [r'] ∧
    r.variance = 1 / 2 ∧ r'.variance = 1 := by
  obtain ⟨⟨r, h1, h2, -⟩, hv, -⟩ := c62_measure_violated
  obtain ⟨res, h3, h4, h5⟩ := c62_measure_partial [[[((1 / 2 : ℝ), fun _ => 0), ((1 / 2 : ℝ), fun _ => 2)]]]
    (by simp) (by simp [allSamples]) 2
  obtain ⟨r', rfl⟩ := List.length_eq_one_iff.mp h4
  refine ⟨[[[((1 / 2 : ℝ), fun _ => 0)], [((1 / 2 : ℝ), fun _ => 2)]]],
    [[[((1 / 2 : ℝ), fun _ => 0), ((1 / 2 : ℝ), fun _ => 2)]]], r, r', ?_, by simp, by simp, h1, h3, h2, ?_⟩
  · simp [SameSamples, allSamples]
  · rw [(h5 r' (by simp)).2.1]
    refine Eq.trans ?_ hv
    simp [allSamples]

/-! ## Samplers -/

/-- The weights of a Markov chain sample do not depend on the layout: the same configurations in another
layout get the same weights. -/
theorem c103_mcmc_weights {C : Type} (f mu : ℝ) (logPsi : C → ℂ) (configs configs' : World C)
    (h : ∀ rk ∈ configs, rk ≠ []) (h' : ∀ rk ∈ configs', rk ≠ [])
    (hsame : SameSamples configs configs') :
    ∃ w w', mcmcSampleOf f mu logPsi configs = .ok w ∧ mcmcSampleOf f mu logPsi configs' = .ok w' ∧
      SameSamples w w' := by
  have key : ∀ v : World C, (∀ rk ∈ v, rk ≠ []) → mcmcSampleOf f mu logPsi v = .ok (World.map (fun c =>
      (c, logPsi c, Real.exp ((1 / f - mu) * (logPsi c).re) /
        ((allSamples v).map fun c => Real.exp ((1 / f - mu) * (logPsi c).re)).sum)) v) := by
    intro v hv
    unfold mcmcSampleOf mcmcWeights
    change Except.bind (Except.bind (globalSum (World.map (fun z : ℂ => Real.exp ((1 / f - mu) * z.re))
      (World.map logPsi v))) _) _ = _
    rw [World.map_map, globalSum_eq _ (World.map_ne _ _ hv), allSamples_wmap]
    change Except.ok _ = Except.ok _
    congr 1
    simp only [World.map, List.map_map, List.zip_map', List.zipWith_map_right, List.zipWith_self,
      Function.comp_def]
  refine ⟨_, _, key configs h, key configs' h', ?_⟩
  unfold SameSamples
  rw [allSamples_wmap, allSamples_wmap, (hsame.map fun c => Real.exp ((1 / f - mu) * (logPsi c).re)).sum_eq]
  exact hsame.map _

/-- The exact sampler returns the same weighted configurations for all numbers of ranks and devices with an
even split (see C09 for other splits), up to entries without weight. -/
theorem c103_exact_sampler (d N D s D' s' : ℕ) [NeZero d] (hl : 2 ≤ d) (hD : 0 < D) (hs : 0 < s)
    (hD' : 0 < D') (hs' : 0 < s')
    (hdiv : ∀ r < s, ∀ n g, distributeSampling s r (d ^ N) none 1 = .ok (n, g) → D ∣ n)
    (hdiv' : ∀ r < s', ∀ n g, distributeSampling s' r (d ^ N) none 1 = .ok (n, g) → D' ∣ n)
    (f lastNorm lastNorm' : ℝ) (hf : f ≠ 0) (logPsi : (Fin N → Fin d) → ℂ) :
    ∃ ln ln' w w', exactSampleWorld d N D s (toConfig N d) f lastNorm logPsi = .ok (ln, w) ∧
      exactSampleWorld d N D' s' (toConfig N d) f lastNorm' logPsi = .ok (ln', w') ∧
      SameWeighted (World.map (fun x => (x.2.2, x.1, x.2.1)) w) (World.map (fun x => (x.2.2, x.1, x.2.1)) w') := by
  obtain ⟨W, basis, ln, hb, -, -, -, hkept, hw⟩ :=
    exactSampleWorld_eq d N D s hl hD hs (toConfig N d) f lastNorm hf logPsi
  obtain ⟨W', basis', ln', hb', -, -, -, hkept', hw'⟩ :=
    exactSampleWorld_eq d N D' s' hl hD' hs' (toConfig N d) f lastNorm' hf logPsi
  obtain ⟨b, e, hnd, -, hcov⟩ := c09_exactly_once_divisible d N D s hl hD hs hdiv
  obtain rfl := Except.ok.inj (hb.symm.trans e)
  obtain ⟨b', e', hnd', -, hcov'⟩ := c09_exactly_once_divisible d N D' s' hl hD' hs' hdiv'
  obtain rfl := Except.ok.inj (hb'.symm.trans e')
  have hperm : basis.Perm basis' := (List.perm_ext_iff_of_nodup hnd hnd').2 fun c => by rw [hcov, hcov']
  refine ⟨ln, ln', _, _, hw, hw', ?_⟩
  have key : ∀ (V : World (Bool × List ℕ)) (B : List (List ℕ)), ((allSamples V).filter (·.1)).map (·.2) = B →
      ((allSamples (World.map (fun x : (Fin N → Fin d) × ℂ × ℝ => (x.2.2, x.1, x.2.1)) (World.map (fun e =>
        (toConfig N d e.2, logPsi (toConfig N d e.2), if e.1 = true then
          bornProb f (B.map fun c => logPsi (toConfig N d c)) (logPsi (toConfig N d e.2)) else 0)) V))).filter
        fun s => s.1 ≠ 0) = B.map fun c => (bornProb f (B.map fun c => logPsi (toConfig N d c))
          (logPsi (toConfig N d c)), toConfig N d c, logPsi (toConfig N d c)) := by
    intro V B hB
    rw [World.map_map, allSamples_wmap, List.filter_map]
    conv_rhs => rw [← hB]
    rw [List.map_map]
    rw [List.filter_congr (q := fun e => e.1)]
    · apply List.map_congr_left
      intro x hx
      simp [(List.mem_filter.mp hx).2, hB]
    · intro x hx
      rcases x with ⟨_ | _, c⟩
      · simp
      · simp only [Function.comp_apply, if_true, ne_eq]
        rw [decide_eq_true]
        apply ne_of_gt
        have hc : c ∈ B := by
          rw [← hB]
          exact List.mem_map.mpr ⟨(true, c), List.mem_filter.mpr ⟨hx, rfl⟩, rfl⟩
        refine div_pos (Real.exp_pos _) (List.sum_pos _ ?_ ?_)
        · intro x hx
          obtain ⟨z, -, rfl⟩ := List.mem_map.mp hx
          exact Real.exp_pos _
        · intro h
          rw [List.map_map, List.map_eq_nil_iff] at h
          rw [h] at hc
          simp at hc
  unfold SameWeighted
  rw [key W basis hkept, key W' basis' hkept']
  have hborn : bornProb f (basis.map fun c => logPsi (toConfig N d c))
      = bornProb f (basis'.map fun c => logPsi (toConfig N d c)) := by
    funext z
    unfold bornProb partitionSum
    rw [((hperm.map fun c => logPsi (toConfig N d c)).map fun z => Real.exp (z.re / f)).sum_eq]
  rw [hborn]
  exact hperm.map _

/-- Case: three spins on two ranks with two devices each, and on one rank with eight devices. -/
example (logPsi : (Fin 3 → Fin 2) → ℂ) := c103_exact_sampler 2 3 2 2 8 1 le_rfl two_pos two_pos (by norm_num)
  one_pos
  (by
    intro r hr n g h
    rcases (by omega : r = 0 ∨ r = 1) with rfl | rfl <;>
    · simp [distributeSampling, samplesPerProcess] at h
      omega)
  (by
    intro r hr n g h
    obtain rfl : r = 0 := by omega
    simp [distributeSampling, samplesPerProcess] at h
    omega) (1 / 2) 0 3 (by norm_num) logPsi

/-- Case: three configurations on two ranks, and on one rank with two devices. -/
example : ∃ w w', mcmcSampleOf (1 / 2) 1 (fun k : ℕ => (k : ℂ)) [[[1, 2]], [[2]]] = .ok w ∧
    mcmcSampleOf (1 / 2) 1 (fun k : ℕ => (k : ℂ)) [[[2], [2, 1]]] = .ok w' ∧ SameSamples w w' :=
  c103_mcmc_weights (1 / 2) 1 (fun k : ℕ => (k : ℂ)) [[[1, 2]], [[2]]] [[[2], [2, 1]]] (by simp) (by simp)
    (by
      simp only [SameSamples, allSamples, List.flatten_cons, List.flatten_nil, List.append_nil, List.cons_append,
        List.nil_append]
      decide)

/-- Case: the exact sampler on two even layouts satisfies the hypotheses of `c103_measure_partial`, so
measurements of the Ising operator give the same mean in both. -/
example (logPsi : Config 2 2 → ℂ) : ∃ ln ln' w w' res res',
    exactSampleWorld 2 2 1 1 (toConfig 2 2) (1 / 2) 0 logPsi = .ok (ln, w) ∧
    exactSampleWorld 2 2 2 2 (toConfig 2 2) (1 / 2) 0 logPsi = .ok (ln', w') ∧
    measureOp (branchFreeKernel [[opSz 0, opSz 1], [opSx 0]] [-1, 3]) ⟨logPsi, true⟩ ![0, 0] 3 none w = .ok res ∧
    measureOp (branchFreeKernel [[opSz 0, opSz 1], [opSx 0]] [-1, 3]) ⟨logPsi, true⟩ ![0, 0] 1 none w' = .ok res' ∧
    ∀ r ∈ res, ∀ r' ∈ res', r'.mean = r.mean := by
  have hdiv : ∀ r < 2, ∀ n g, distributeSampling 2 r (2 ^ 2) none 1 = .ok (n, g) → 2 ∣ n := by
    intro r hr n g h
    rcases (by omega : r = 0 ∨ r = 1) with rfl | rfl <;>
    · simp [distributeSampling, samplesPerProcess] at h
      omega
  obtain ⟨ln, w, h1, -, -, h2, -⟩ := c77_exact_sampler 2 2 1 1 le_rfl one_pos one_pos (by norm_num)
    (fun _ _ n _ _ => one_dvd n) 0 logPsi
  obtain ⟨ln', w', h1', -, -, h2', -⟩ := c77_exact_sampler 2 2 2 2 le_rfl two_pos two_pos (by norm_num)
    hdiv 0 logPsi
  obtain ⟨_, _, v, v', e, e', hsame⟩ := c103_exact_sampler 2 2 1 1 2 2 le_rfl one_pos one_pos two_pos two_pos
    (fun _ _ n _ _ => one_dvd n) hdiv (1 / 2) 0 0 (by norm_num) logPsi
  obtain ⟨-, rfl⟩ := Prod.mk.inj (Except.ok.inj (h1.symm.trans e))
  obtain ⟨-, rfl⟩ := Prod.mk.inj (Except.ok.inj (h1'.symm.trans e'))
  have hk := operatorOf_branchFree [[opSz 0, opSz 1], [opSx 0]] [-1, 3] rfl (by simp [opSz, opSx])
    (by
      have : arr2 (0 : Fin 2) 1 = id := by funext x; fin_cases x <;> rfl
      simp [opSz, opSx, this]) ising_above
  have hs2 : ((weighted w).filter fun s => s.1 ≠ 0).Perm ((weighted w').filter fun s => s.1 ≠ 0) := by
    have := hsame.map fun s => (s.1, s.2.1)
    unfold weighted
    rw [allSamples_wmap, allSamples_wmap, List.filter_map, List.filter_map, List.map_map, List.map_map] at this
    rw [List.filter_map, List.filter_map]
    exact this
  obtain ⟨res, res', g, g', -, -, hm, -⟩ := c103_measure_partial hk ⟨logPsi, true⟩ rfl ![0, 0] ![0, 0] 3 1 none
    w w' h2 h2' hs2
  exact ⟨ln, ln', w, w', res, res', h1, h1', g, g', hm⟩

end JVMC
