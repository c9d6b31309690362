import Mathlib.Analysis.Matrix.Spectrum
import Mathlib.Data.Fin.Tuple.Sort
import Verif.Lemmas.Tdvp
import Verif.Props.Vqs

/-!
# C44-C46, C48: the TDVP solver
-/

namespace JVMC

open Spec Matrix

variable {n : ℕ}

/-! ## The steps of `solve` -/

theorem var_of_create {ι : Type} (world : World (ℝ × (ι → ℂ))) (h : ∀ r ∈ world, r ≠ [])
    (hw : ∀ s ∈ allSamples world, 0 ≤ s.1) (o : SObs ι) (ho : SObs.create world = .ok o) :
    o.var = .ok (List.map (fun _ => wVar (allSamples world)) world) := by
  obtain ⟨o', ho', hv⟩ := c41_var world h hw
  rw [ho] at ho'
  obtain rfl := Except.ok.inj ho'
  exact hv

/-- The samples of the force in the eigenbasis: `∑_i conj(V_ik) q[-x conj(O_i - mean)(E - mean)]`. -/
noncomputable def forceSamples (cfg : TdvpCfg n) (V : Matrix (Fin (n + 1)) (Fin (n + 1)) ℂ)
    (l : List (ℝ × (Fin 1 → ℂ) × (Fin (n + 1) → ℂ))) : List (ℝ × (Fin (n + 1) → ℂ)) :=
  l.map fun s => (s.1, fun k => ∑ i, (starRingEnd ℂ) (V i k) * cfg.q ((-cfg.rhsPrefactor) *
    ((starRingEnd ℂ) (s.2.2 i - wMean (l.map fun s => (s.1, s.2.2)) i)
      * (s.2.1 0 - wMean (l.map fun s => (s.1, s.2.1)) 0))))

/-- The signal-to-noise ratio is that of the samples of the force, if all weights are positive. -/
theorem tdvpSnr_eq (cfg : TdvpCfg n) (r : ℕ)
    (joint : World (ℝ × (Fin 1 → ℂ) × (Fin (n + 1) → ℂ))) (h : ∀ r ∈ joint, r ≠ [])
    (hpos : ∀ s ∈ allSamples joint, 0 < s.1) (hr : r < List.length joint)
    (E : SObs (Fin 1)) (G : SObs (Fin (n + 1))) (hd : IsTdvpData joint E G) (sp : TdvpSpectrum n) :
    tdvpSnr cfg r E G sp = .ok fun k => (Num.quot (cfg.numSamples * Complex.normSq (sp.VtF k))
      (wVar (forceSamples cfg sp.V (allSamples joint)) k)).sqrt := by
  obtain ⟨hE, hG⟩ := hd
  let j' : World (ℝ × (Fin (n + 1) → ℂ) × (Fin 1 → ℂ)) := World.map (fun s => (s.1, s.2.2, s.2.1)) joint
  have hj : ∀ r ∈ j', r ≠ [] := World.map_ne _ _ h
  have e1 : World.map (fun s => (s.1, s.2.1)) j' = World.map (fun s => (s.1, s.2.2)) joint :=
    World.map_map _ _ _
  have e2 : World.map (fun s => (s.1, s.2.2)) j' = World.map (fun s => (s.1, s.2.1)) joint :=
    World.map_map _ _ _
  have hpos' : ∀ s ∈ allSamples j', 0 < s.1 := by
    intro s hs
    rw [allSamples_wmap] at hs
    obtain ⟨t, ht, rfl⟩ := List.mem_map.mp hs
    exact hpos t ht
  obtain ⟨a, b, o, ha, hb, ho, hco⟩ := covarData_eq j' hj hpos'
  rw [e1, hG] at ha
  rw [e2, hE] at hb
  obtain rfl := Except.ok.inj ha
  obtain rfl := Except.ok.inj hb
  have hpos2 : ∀ s ∈ allSamples (World.map (fun s : ℝ × (Fin (n + 1) → ℂ) × (Fin 1 → ℂ) =>
      (s.1, fun ik : Fin (n + 1) × Fin 1 =>
      (starRingEnd ℂ) (s.2.1 ik.1 - wMean ((allSamples j').map fun s => (s.1, s.2.1)) ik.1)
        * (s.2.2 ik.2 - wMean ((allSamples j').map fun s => (s.1, s.2.2)) ik.2))) j'), 0 < s.1 := by
    intro s hs
    rw [allSamples_wmap] at hs
    obtain ⟨t, ht, rfl⟩ := List.mem_map.mp hs
    exact hpos' t ht
  obtain ⟨o₁, o₂, ho₁, ho₂, hc₂⟩ := c67_linear_matrix_partial (μ := Fin (n + 1)) _
    (World.map_ne _ _ hj) hpos2
    (fun k i => (starRingEnd ℂ) (sp.V i k)) (fun z => cfg.q ((-cfg.rhsPrefactor) * z))
  rw [hco] at ho₁
  obtain rfl := Except.ok.inj ho₁
  have hv := var_of_create _ (World.map_ne _ _ (World.map_ne _ _ hj)) (by
    intro s hs
    rw [allSamples_wmap] at hs
    obtain ⟨t, ht, rfl⟩ := List.mem_map.mp hs
    exact (hpos2 t ht).le) _ hc₂
  unfold tdvpSnr
  rw [ho]
  change Except.bind (SObs.transformLinear _ _ _) _ = _
  rw [ho₂]
  change Except.bind (SObs.var _) _ = _
  rw [hv]
  change Except.bind (atRank r _) _ = _
  rw [World.const_map, World.const_map, World.const_map, atRank_map _ _ _ hr]
  change Except.ok _ = Except.ok _
  congr 1
  funext k
  congr 2
  unfold wVar forceSamples
  simp only [allSamples_wmap, j', List.map_map, wMean_apply, Function.comp_def]

theorem tdvpSnr_ok (cfg : TdvpCfg n) (r : ℕ)
    (joint : World (ℝ × (Fin 1 → ℂ) × (Fin (n + 1) → ℂ))) (h : ∀ r ∈ joint, r ≠ [])
    (hw : ∀ s ∈ allSamples joint, 0 ≤ s.1) (hr : r < List.length joint)
    (E : SObs (Fin 1)) (G : SObs (Fin (n + 1))) (hd : IsTdvpData joint E G) (sp : TdvpSpectrum n) :
    ∃ snr, tdvpSnr cfg r E G sp = .ok snr := by
  by_cases hpos : ∀ s ∈ allSamples joint, 0 < s.1
  · exact ⟨_, tdvpSnr_eq cfg r joint h hpos hr E G hd sp⟩
  · obtain ⟨hE, hG⟩ := hd
    let j' : World (ℝ × (Fin (n + 1) → ℂ) × (Fin 1 → ℂ)) :=
      World.map (fun s => (s.1, s.2.2, s.2.1)) joint
    have hj : ∀ r ∈ j', r ≠ [] := World.map_ne _ _ h
    have e1 : World.map (fun s => (s.1, s.2.1)) j' = World.map (fun s => (s.1, s.2.2)) joint :=
      World.map_map _ _ _
    have e2 : World.map (fun s => (s.1, s.2.2)) j' = World.map (fun s => (s.1, s.2.1)) joint :=
      World.map_map _ _ _
    push Not at hpos
    obtain ⟨s, hs, hle⟩ := hpos
    have h0 : s.1 = 0 := le_antisymm hle (hw s hs)
    obtain ⟨a, b, ha, hb, hc, -⟩ := c43_zero_weight_violated j' hj
      ⟨(s.1, s.2.2, s.2.1), by
        rw [allSamples_wmap]
        exact List.mem_map.mpr ⟨s, hs, rfl⟩, h0⟩
    rw [e1, hG] at ha
    rw [e2, hE] at hb
    obtain rfl := Except.ok.inj ha
    obtain rfl := Except.ok.inj hb
    unfold tdvpSnr
    rw [hc]
    exact ⟨_, rfl⟩

theorem tdvpSolve_eq (cfg : TdvpCfg n) (r : ℕ)
    (joint : World (ℝ × (Fin 1 → ℂ) × (Fin (n + 1) → ℂ))) (h : ∀ r ∈ joint, r ≠ [])
    (hw : ∀ s ∈ allSamples joint, 0 ≤ s.1) (hr : r < List.length joint)
    (E : SObs (Fin 1)) (G : SObs (Fin (n + 1))) (hd : IsTdvpData joint E G) :
    ∃ snr, tdvpSnr cfg r E G (tdvpEigenbasis cfg (specQS cfg (allSamples joint))
        (specQF cfg (allSamples joint))) = .ok snr ∧ ∀ at₀ : TdvpAttrs n,
      tdvpSolve cfg r (some (E, G)) at₀
        = match pinvLoop cfg (tdvpEigenbasis cfg (specQS cfg (allSamples joint))
            (specQF cfg (allSamples joint))) snr (specQF cfg (allSamples joint)) with
          | none => .error .noReturn
          | some s => match tdvpUpdate cfg (tdvpEigenbasis cfg (specQS cfg (allSamples joint))
              (specQF cfg (allSamples joint))) s with
            | .error e => .error e
            | .ok res => .ok (res, { at₀ with
                eqn := some (some (specEqn cfg (allSamples joint)))
                S := some (some (specQS cfg (allSamples joint)))
                spectrum := some (some (tdvpEigenbasis cfg (specQS cfg (allSamples joint))
                  (specQF cfg (allSamples joint))))
                snr := some snr }) := by
  obtain ⟨snr, hsnr⟩ := tdvpSnr_ok cfg r joint h hw hr E G hd
    (tdvpEigenbasis cfg (specQS cfg (allSamples joint)) (specQF cfg (allSamples joint)))
  refine ⟨snr, hsnr, fun at₀ => ?_⟩
  unfold tdvpSolve
  rw [getTdvpEquation_eq cfg r joint h hw hr E G hd at₀]
  change Except.bind (tdvpSnr cfg r E G (tdvpEigenbasis cfg (specQS cfg (allSamples joint))
    (specQF cfg (allSamples joint)))) _ = _
  rw [hsnr]
  change (match pinvLoop cfg (tdvpEigenbasis cfg (specQS cfg (allSamples joint))
    (specQF cfg (allSamples joint))) snr (specQF cfg (allSamples joint)) with
    | none => _
    | some s => _) = _
  cases pinvLoop cfg (tdvpEigenbasis cfg (specQS cfg (allSamples joint))
    (specQF cfg (allSamples joint))) snr (specQF cfg (allSamples joint)) with
  | none => rfl
  | some s =>
    change Except.bind (tdvpUpdate cfg (tdvpEigenbasis cfg (specQS cfg (allSamples joint))
      (specQF cfg (allSamples joint))) s) _ = _
    dsimp only
    cases tdvpUpdate cfg (tdvpEigenbasis cfg (specQS cfg (allSamples joint))
      (specQF cfg (allSamples joint))) s <;> rfl

/-- The samples of a call: every rank has a device, weights are not negative, `r` is one of the
ranks; `E` and `G` are the `SampledObs` of local energies and gradients. -/
structure TdvpInput (joint : World (ℝ × (Fin 1 → ℂ) × (Fin (n + 1) → ℂ))) (r : ℕ)
    (E : SObs (Fin 1)) (G : SObs (Fin (n + 1))) : Prop where
  devices : ∀ rk ∈ joint, rk ≠ []
  weights : ∀ s ∈ allSamples joint, 0 ≤ s.1
  rank : r < List.length joint
  data : IsTdvpData joint E G

/-- The eigensolver does its job on Hermitian matrices. -/
def EighCorrect (cfg : TdvpCfg n) : Prop :=
  ∀ S : Matrix (Fin (n + 1)) (Fin (n + 1)) ℂ, S.IsHermitian → IsEigh S (cfg.eigh S).1 (cfg.eigh S).2

/-- What a successful `solve` has done. -/
theorem solve_ok (cfg : TdvpCfg n) (r : ℕ) (joint : World (ℝ × (Fin 1 → ℂ) × (Fin (n + 1) → ℂ)))
    (E : SObs (Fin 1)) (G : SObs (Fin (n + 1))) (hi : TdvpInput joint r E G) (at₀ at₁ : TdvpAttrs n)
    (res : SolveRes n) (hres : tdvpSolve cfg r (some (E, G)) at₀ = .ok (res, at₁)) :
    ∃ snr s₀, tdvpSnr cfg r E G (tdvpEigenbasis cfg (specQS cfg (allSamples joint))
        (specQF cfg (allSamples joint))) = .ok snr ∧ at₁.snr = some snr ∧
      pinvCond cfg s₀ = true ∧
      pinvCond cfg (pinvBody cfg (tdvpEigenbasis cfg (specQS cfg (allSamples joint))
        (specQF cfg (allSamples joint))) snr (specQF cfg (allSamples joint)) s₀) = false ∧
      tdvpUpdate cfg (tdvpEigenbasis cfg (specQS cfg (allSamples joint))
        (specQF cfg (allSamples joint))) (pinvBody cfg (tdvpEigenbasis cfg
          (specQS cfg (allSamples joint)) (specQF cfg (allSamples joint))) snr
          (specQF cfg (allSamples joint)) s₀) = .ok res := by
  obtain ⟨snr, hsnr, heq⟩ := tdvpSolve_eq cfg r joint hi.devices hi.weights hi.rank E G hi.data
  rw [heq at₀] at hres
  cases hl : pinvLoop cfg (tdvpEigenbasis cfg (specQS cfg (allSamples joint))
      (specQF cfg (allSamples joint))) snr (specQF cfg (allSamples joint)) with
  | none => rw [hl] at hres; cases hres
  | some s =>
    rw [hl] at hres
    dsimp only at hres
    obtain ⟨hinv, hcond⟩ := pinv_inv _ _ _ _ _ hl
    rcases hinv with h0 | ⟨s₀, hs₀, hs⟩
    · rw [h0] at hres
      cases hres
    · cases hu : tdvpUpdate cfg (tdvpEigenbasis cfg (specQS cfg (allSamples joint))
        (specQF cfg (allSamples joint))) s with
      | error e => rw [hu] at hres; cases hres
      | ok res' =>
        rw [hu] at hres
        simp only [Except.ok.injEq, Prod.mk.injEq] at hres
        obtain ⟨rfl, rfl⟩ := hres
        exact ⟨snr, s₀, hsnr, rfl, hs₀, by rw [← hs]; exact hcond, by rw [← hs]; exact hu⟩

/-- Every Hermitian matrix has an eigendecomposition, so correct eigensolvers exist. -/
theorem exists_eigh {m : ℕ} (S : Matrix (Fin m) (Fin m) ℂ) (hS : S.IsHermitian) :
    ∃ ev V, IsEigh S ev V := by
  let U : Matrix (Fin m) (Fin m) ℂ := hS.eigenvectorUnitary
  have hU : star U * U = 1 := Matrix.UnitaryGroup.star_mul_self _
  have hSU : S * U = U * Matrix.diagonal (fun k => (hS.eigenvalues k : ℂ)) := by
    have h := hS.spectral_theorem
    rw [Unitary.conjStarAlgAut_apply] at h
    conv_lhs => rw [h]
    change U * _ * star U * U = _
    rw [Matrix.mul_assoc, hU, Matrix.mul_one]
    rfl
  let σ := Tuple.sort hS.eigenvalues
  refine ⟨hS.eigenvalues ∘ σ, U.submatrix id σ, ?_, ?_, Tuple.monotone_sort _⟩
  · ext i j
    have := congrFun (congrFun hU (σ i)) (σ j)
    rw [Matrix.mul_apply] at this ⊢
    simp only [Matrix.one_apply, EmbeddingLike.apply_eq_iff_eq] at this ⊢
    exact this
  · ext i j
    have := congrFun (congrFun hSU i) (σ j)
    rw [Matrix.mul_apply, Matrix.mul_diagonal] at this
    rw [Matrix.mul_apply, Matrix.mul_diagonal]
    exact this

open Classical in
/-- An eigensolver. -/
noncomputable def someEigh {m : ℕ} (S : Matrix (Fin m) (Fin m) ℂ) :
    (Fin m → ℝ) × Matrix (Fin m) (Fin m) ℂ :=
  if h : S.IsHermitian then ((exists_eigh S h).choose, (exists_eigh S h).choose_spec.choose)
  else (0, 0)

theorem someEigh_correct (cfg : TdvpCfg n) (h : cfg.eigh = someEigh) : EighCorrect cfg := by
  intro S hS
  rw [h]
  unfold someEigh
  rw [dif_pos hS]
  exact (exists_eigh S hS).choose_spec.choose_spec

/-- Two ranks with one device each, three samples; two parameters. -/
noncomputable def demoJoint : World (ℝ × (Fin 1 → ℂ) × (Fin 2 → ℂ)) :=
  [[[(1 / 2, ![1], ![1, 1]), (1 / 4, ![2], ![0, Complex.I])]], [[(1 / 4, ![-1], ![Complex.I, 0])]]]

noncomputable def demoCfg : TdvpCfg 1 :=
  ⟨2, 1e-8, 1e-6, "real", Complex.I, 0, false, true, 3, someEigh⟩

/-- Every set of samples gives `SampledObs` objects. -/
theorem tdvpInput_exists (joint : World (ℝ × (Fin 1 → ℂ) × (Fin (n + 1) → ℂ))) (r : ℕ)
    (h1 : ∀ rk ∈ joint, rk ≠ []) (h2 : ∀ s ∈ allSamples joint, 0 ≤ s.1) (h3 : r < List.length joint) :
    ∃ E G, TdvpInput joint r E G :=
  ⟨_, _, h1, h2, h3, create_eq _ (World.map_ne _ _ h1), create_eq _ (World.map_ne _ _ h1)⟩

theorem demo_input : ∃ E G, TdvpInput demoJoint 1 E G := by
  refine tdvpInput_exists _ _ ?_ ?_ ?_
  · intro rk hrk
    simp only [demoJoint, List.mem_cons, List.not_mem_nil, or_false] at hrk
    rcases hrk with rfl | rfl <;> simp
  · intro s hs
    simp only [demoJoint, allSamples, List.flatten_cons, List.flatten_nil, List.append_nil,
      List.cons_append, List.nil_append, List.mem_cons, List.not_mem_nil, or_false] at hs
    rcases hs with rfl | rfl | rfl <;> norm_num
  · simp [demoJoint]

/-! ## C45 -/

/-- C45: with a positive `pinvCutoff` below 0.01 and `pinvTol` below 1, `solve` terminates and returns
for every data set. Missing: other settings (`c45_unbound_violated`), and the update need not be a
number (`c45_dead_parameter_violated`). -/
theorem c45_returns_partial (cfg : TdvpCfg n) (hc : 0 < cfg.pinvCutoff) (hc' : cfg.pinvCutoff < 1e-2)
    (ht : cfg.pinvTol < 1) (r : ℕ) (joint : World (ℝ × (Fin 1 → ℂ) × (Fin (n + 1) → ℂ)))
    (E : SObs (Fin 1)) (G : SObs (Fin (n + 1))) (hi : TdvpInput joint r E G) (at₀ : TdvpAttrs n) :
    ∃ res at₁, tdvpSolve cfg r (some (E, G)) at₀ = .ok (res, at₁) := by
  obtain ⟨snr, hsnr, heq⟩ := tdvpSolve_eq cfg r joint hi.devices hi.weights hi.rank E G hi.data
  rw [heq at₀]
  obtain ⟨s, hs⟩ := pinv_terminates cfg hc (tdvpEigenbasis cfg (specQS cfg (allSamples joint))
    (specQF cfg (allSamples joint))) snr (specQF cfg (allSamples joint))
  rw [hs]
  obtain ⟨hinv, hcond⟩ := pinv_inv _ _ _ _ _ hs
  rcases hinv with h0 | ⟨s₀, _, hs'⟩
  · exfalso
    rw [h0] at hcond
    simp [pinvCond, ht, hc'] at hcond
  · rw [hs']
    exact ⟨_, _, rfl⟩

/-- Case: the default settings. -/
example : ∃ E G, TdvpInput demoJoint 1 E G ∧ ∀ at₀, ∃ res at₁,
    tdvpSolve demoCfg 1 (some (E, G)) at₀ = .ok (res, at₁) := by
  obtain ⟨E, G, hi⟩ := demo_input
  exact ⟨E, G, hi, fun at₀ => c45_returns_partial demoCfg (by norm_num [demoCfg])
    (by norm_num [demoCfg]) (by norm_num [demoCfg]) 1 demoJoint E G hi at₀⟩

/-- C45 is violated for `pinvTol ≥ 1` or `pinvCutoff ≥ 0.01`: the loop is never entered and every call
raises `UnboundLocalError`. -/
theorem c45_unbound_violated (cfg : TdvpCfg n) (hbad : 1 ≤ cfg.pinvTol ∨ 1e-2 ≤ cfg.pinvCutoff) (r : ℕ)
    (joint : World (ℝ × (Fin 1 → ℂ) × (Fin (n + 1) → ℂ)))
    (E : SObs (Fin 1)) (G : SObs (Fin (n + 1))) (hi : TdvpInput joint r E G) (at₀ : TdvpAttrs n) :
    tdvpSolve cfg r (some (E, G)) at₀ = .error .unboundLocalError := by
  obtain ⟨snr, hsnr, heq⟩ := tdvpSolve_eq cfg r joint hi.devices hi.weights hi.rank E G hi.data
  rw [heq at₀]
  have hf : pinvCond cfg (⟨some 1, 1e-2, none⟩ : PinvState n) = false := by
    unfold pinvCond
    rcases hbad with h | h
    · simp only [Bool.and_eq_false_iff, decide_eq_false_iff_not, not_lt]
      exact Or.inl h
    · simp only [Bool.and_eq_false_iff, decide_eq_false_iff_not, not_lt]
      exact Or.inr h
  rw [show pinvLoop cfg (tdvpEigenbasis cfg (specQS cfg (allSamples joint))
    (specQF cfg (allSamples joint))) snr (specQF cfg (allSamples joint))
      = some ⟨some 1, 1e-2, none⟩ from whileLoop_zero _ _ _ hf]
  rfl

/-- C45: the reported cutoff is at least `pinvCutoff`; if it is larger the reported residual (if it is a
number) is at most `pinvTol`. -/
theorem c45_exit (cfg : TdvpCfg n) (r : ℕ) (joint : World (ℝ × (Fin 1 → ℂ) × (Fin (n + 1) → ℂ)))
    (E : SObs (Fin 1)) (G : SObs (Fin (n + 1))) (hi : TdvpInput joint r E G) (at₀ at₁ : TdvpAttrs n)
    (res : SolveRes n) (hres : tdvpSolve cfg r (some (E, G)) at₀ = .ok (res, at₁)) :
    cfg.pinvCutoff ≤ res.cutoff ∧
      ∀ ρ, res.residual = some ρ → ρ ≤ cfg.pinvTol ∨ res.cutoff = cfg.pinvCutoff := by
  obtain ⟨snr, s₀, _, _, _, hf, hu⟩ := solve_ok cfg r joint E G hi at₀ at₁ res hres
  generalize hs : pinvBody cfg (tdvpEigenbasis cfg (specQS cfg (allSamples joint))
    (specQF cfg (allSamples joint))) snr (specQF cfg (allSamples joint)) s₀ = s at hf hu
  have hp : s.pinvEv ≠ none := by rw [← hs]; intro h; cases h
  unfold tdvpUpdate at hu
  cases hpe : s.pinvEv with
  | none => exact absurd hpe hp
  | some p =>
    rw [hpe] at hu
    have hu := Except.ok.inj hu
    rw [← hu]
    refine ⟨le_max_right _ _, ?_⟩
    intro ρ hρ
    change s.residual = some ρ at hρ
    unfold pinvCond at hf
    rw [hρ] at hf
    simp only [Bool.and_eq_false_iff, decide_eq_false_iff_not, not_lt] at hf
    rcases hf with h | h
    · exact Or.inl h
    · exact Or.inr (max_eq_right h)

/-- The pseudo-inverse `p` behind a numerical update. -/
theorem solve_pinv (cfg : TdvpCfg n) (r : ℕ) (joint : World (ℝ × (Fin 1 → ℂ) × (Fin (n + 1) → ℂ)))
    (E : SObs (Fin 1)) (G : SObs (Fin (n + 1))) (hi : TdvpInput joint r E G) (at₀ at₁ : TdvpAttrs n)
    (res : SolveRes n) (hres : tdvpSolve cfg r (some (E, G)) at₀ = .ok (res, at₁))
    (u : Fin (n + 1) → ℝ) (hu : res.update = some u) :
    ∃ (snr : Fin (n + 1) → Num) (p : Fin (n + 1) → ℝ), at₁.snr = some snr ∧
      (∀ k, (tdvpRegularizer cfg (tdvpEigenbasis cfg (specQS cfg (allSamples joint))
        (specQF cfg (allSamples joint))) snr res.cutoff k).map (fun g =>
          (tdvpEigenbasis cfg (specQS cfg (allSamples joint))
            (specQF cfg (allSamples joint))).invEv k * g) = some (p k)) ∧
      (u = fun i => (((cfg.eigh (specQS cfg (allSamples joint))).2 *ᵥ fun k => (p k : ℂ) *
        ((cfg.eigh (specQS cfg (allSamples joint))).2ᴴ *ᵥ specQF cfg (allSamples joint)) k) i).re) ∧
      ∀ ρ, res.residual = some ρ → euclid (specQF cfg (allSamples joint)) ≠ 0 ∧
        ρ = euclid (fun k => ((p k * (cfg.eigh (specQS cfg (allSamples joint))).1 k - 1 : ℝ) : ℂ) *
          ((cfg.eigh (specQS cfg (allSamples joint))).2ᴴ *ᵥ specQF cfg (allSamples joint)) k)
          / euclid (specQF cfg (allSamples joint)) := by
  obtain ⟨snr, s₀, _, hs, _, hf, hup⟩ := solve_ok cfg r joint E G hi at₀ at₁ res hres
  generalize hsp : tdvpEigenbasis cfg (specQS cfg (allSamples joint)) (specQF cfg (allSamples joint))
    = sp at hf hup
  have hV : (cfg.eigh (specQS cfg (allSamples joint))).2 = sp.V := by rw [← hsp]; rfl
  have hev : (cfg.eigh (specQS cfg (allSamples joint))).1 = sp.ev := by rw [← hsp]; rfl
  have hVtF : (cfg.eigh (specQS cfg (allSamples joint))).2ᴴ *ᵥ specQF cfg (allSamples joint)
      = sp.VtF := by rw [← hsp]; rfl
  rw [hVtF, hV, hev]
  have hup := Except.ok.inj hup
  rw [← hup] at hu
  rw [← hup]
  dsimp only at hu ⊢
  change Option.map _ (allFinite (fun k => (tdvpRegularizer cfg sp snr (s₀.cutoff * (4 / 5)) k).map
    fun g => sp.invEv k * g)) = some u at hu
  have hreg : ∀ k, tdvpRegularizer cfg sp snr (max (s₀.cutoff * (4 / 5)) cfg.pinvCutoff) k
      = tdvpRegularizer cfg sp snr (s₀.cutoff * (4 / 5)) k := by
    intro k
    unfold tdvpRegularizer
    rw [max_assoc, max_self]
  unfold allFinite at hu
  split at hu
  · rename_i hall
    refine ⟨snr, fun k => (((tdvpRegularizer cfg sp snr (s₀.cutoff * (4 / 5)) k).map
      fun g => sp.invEv k * g)).getD 0, hs, ?_, ?_, ?_⟩
    · intro k
      change Option.map _ (tdvpRegularizer cfg sp snr (max (s₀.cutoff * (4 / 5)) cfg.pinvCutoff) k) = _
      rw [hreg]
      have := hall k
      obtain ⟨y, hy⟩ := Option.isSome_iff_exists.mp this
      beta_reduce at hy ⊢
      rw [hy]
      rfl
    · exact (Option.some.inj hu).symm
    · intro ρ hρ
      change (match allFinite (fun k => (tdvpRegularizer cfg sp snr (s₀.cutoff * (4 / 5)) k).map
        fun g => sp.invEv k * g) with
        | none => none
        | some p => if vecNorm (specQF cfg (allSamples joint)) = 0 then none
          else some (vecNorm (fun k => ((p k * sp.ev k - 1 : ℝ) : ℂ) * sp.VtF k)
            / vecNorm (specQF cfg (allSamples joint)))) = some ρ at hρ
      unfold allFinite at hρ
      rw [if_pos hall] at hρ
      dsimp only at hρ
      split at hρ
      · cases hρ
      · rename_i h0
        exact ⟨h0, (Option.some.inj hρ).symm⟩
  · cases hu

/-- C45: whenever update and residual are numbers, the residual is that of a solution `x` whose real
part is the returned update, and the returned update has at most this residual. Missing: equality for
the returned update (`c45_residual_exact` has it for exact sampling). -/
theorem c45_residual_partial (cfg : TdvpCfg n) (heigh : EighCorrect cfg) (r : ℕ)
    (joint : World (ℝ × (Fin 1 → ℂ) × (Fin (n + 1) → ℂ)))
    (E : SObs (Fin 1)) (G : SObs (Fin (n + 1))) (hi : TdvpInput joint r E G)
    (at₀ at₁ at₂ : TdvpAttrs n) (S : Matrix (Fin (n + 1)) (Fin (n + 1)) ℂ) (F : Fin (n + 1) → ℂ)
    (hSF : getTdvpEquation cfg r (some (E, G)) at₀ = .ok (some (S, F), at₂))
    (res : SolveRes n) (hres : tdvpSolve cfg r (some (E, G)) at₀ = .ok (res, at₁))
    (u : Fin (n + 1) → ℝ) (hu : res.update = some u) (ρ : ℝ) (hρ : res.residual = some ρ) :
    (∃ x : Fin (n + 1) → ℂ, (∀ i, (x i).re = u i) ∧ relResidual S F x = ρ) ∧
      relResidual S F (fun i => (u i : ℂ)) ≤ ρ := by
  rw [getTdvpEquation_eq cfg r joint hi.devices hi.weights hi.rank E G hi.data at₀] at hSF
  simp only [Except.ok.injEq, Prod.mk.injEq, Option.some.injEq] at hSF
  obtain ⟨⟨rfl, rfl⟩, _⟩ := hSF
  obtain ⟨snr, p, _, _, rfl, hr⟩ := solve_pinv cfg r joint E G hi at₀ at₁ res hres u hu
  obtain ⟨_, hρe⟩ := hr ρ hρ
  have he := residual_eigenbasis _ _ _ p (specQF cfg (allSamples joint))
    (heigh _ (specQS_hermitian cfg (allSamples joint)))
  rw [← hρe] at he
  refine ⟨⟨_, fun i => rfl, he⟩, ?_⟩
  rw [← he]
  exact residual_re_le _ _ _ cfg.sign (sign_cases cfg) (specQS_sign cfg _) (fun i => q_conj cfg _)

theorem pinv_odd (cfg : TdvpCfg n) (hex : cfg.isExact = true) (sp : TdvpSpectrum n)
    (hinv : ∀ k, sp.invEv k = if (Num.quot |sp.ev k| |sp.ev (Fin.last n)|).gt 1e-14 then 1 / sp.ev k
      else 0)
    (snr : Fin (n + 1) → Num) (c : ℝ) (p : Fin (n + 1) → ℝ)
    (hp : ∀ k, (tdvpRegularizer cfg sp snr c k).map (fun g => sp.invEv k * g) = some (p k))
    (ε : ℝ) (hε : ε = 1 ∨ ε = -1) (i j : Fin (n + 1)) (h : sp.ev i = ε * sp.ev j) :
    p i = ε * p j := by
  have habs : |sp.ev i| = |sp.ev j| := by
    rw [h]; rcases hε with rfl | rfl <;> simp
  have hreg : tdvpRegularizer cfg sp snr c i = tdvpRegularizer cfg sp snr c j := by
    unfold tdvpRegularizer
    simp only [habs, hex, if_true]
  have hi : sp.invEv i = ε * sp.invEv j := by
    rw [hinv, hinv, habs]
    split
    · rw [h]
      rcases hε with rfl | rfl
      · rw [one_mul, one_mul]
      · rw [neg_one_mul, neg_one_mul, one_div_neg_eq_neg_one_div]
    · simp
  have h1 := hp i
  have h2 := hp j
  rw [hreg] at h1
  cases hx : tdvpRegularizer cfg sp snr c j with
  | none => rw [hx] at h1; cases h1
  | some g =>
    rw [hx] at h1 h2
    have h1 := Option.some.inj h1
    have h2 := Option.some.inj h2
    rw [← h1, ← h2, hi]
    ring

/-- C45: with the exact sampler, the reported residual is `‖S u - F‖ / ‖F‖` of the returned update `u`. -/
theorem c45_residual_exact (cfg : TdvpCfg n) (heigh : EighCorrect cfg) (hex : cfg.isExact = true) (r : ℕ)
    (joint : World (ℝ × (Fin 1 → ℂ) × (Fin (n + 1) → ℂ)))
    (E : SObs (Fin 1)) (G : SObs (Fin (n + 1))) (hi : TdvpInput joint r E G)
    (at₀ at₁ at₂ : TdvpAttrs n) (S : Matrix (Fin (n + 1)) (Fin (n + 1)) ℂ) (F : Fin (n + 1) → ℂ)
    (hSF : getTdvpEquation cfg r (some (E, G)) at₀ = .ok (some (S, F), at₂))
    (res : SolveRes n) (hres : tdvpSolve cfg r (some (E, G)) at₀ = .ok (res, at₁))
    (u : Fin (n + 1) → ℝ) (hu : res.update = some u) (ρ : ℝ) (hρ : res.residual = some ρ) :
    relResidual S F (fun i => (u i : ℂ)) = ρ := by
  rw [getTdvpEquation_eq cfg r joint hi.devices hi.weights hi.rank E G hi.data at₀] at hSF
  simp only [Except.ok.injEq, Prod.mk.injEq, Option.some.injEq] at hSF
  obtain ⟨⟨rfl, rfl⟩, _⟩ := hSF
  obtain ⟨snr, p, _, hp, rfl, hr⟩ := solve_pinv cfg r joint E G hi at₀ at₁ res hres u hu
  obtain ⟨_, hρe⟩ := hr ρ hρ
  have hH := specQS_hermitian cfg (allSamples joint)
  have he := residual_eigenbasis _ _ _ p (specQF cfg (allSamples joint)) (heigh _ hH)
  rw [← hρe] at he
  rw [← he]
  congr 1
  funext i
  apply Complex.conj_eq_iff_re.mp
  exact solution_real _ _ _ p _ cfg.sign (heigh _ hH) hH (sign_cases cfg) (specQS_sign cfg _)
    (fun i => q_conj cfg _)
    (fun i j hij => pinv_odd cfg hex _ (fun k => rfl) snr _ p hp _ (sign_cases cfg) i j hij) i

theorem allFinite_some {m : ℕ} (g : Fin m → ℝ) : allFinite (fun k => (some (g k) : Flt ℝ)) = some g := by
  unfold allFinite
  rw [if_pos (by intro i; rfl)]
  rfl

theorem allFinite_none {m : ℕ} (g : Fin m → Flt ℝ) (k : Fin m) (h : g k = none) :
    allFinite g = none := by
  unfold allFinite
  rw [if_neg]
  intro hall
  have := hall k
  rw [h] at this
  cases this

/-- The damping by the signal-to-noise ratio: `1 / (1 + (snrTol / snr)^6)`, which is one for data
without noise (infinite ratio) and zero for data without signal. -/
def SnrDamping (snrTol : ℝ) (snr : Num) (damping : ℝ) : Prop :=
  (snr = .inf ∧ damping = 1) ∨ (snr = .fin 0 ∧ 0 < snrTol ∧ damping = 0) ∨
    ∃ x, x ≠ 0 ∧ snr = .fin x ∧ damping = 1 / (1 + (snrTol / x) ^ 6)

/-- C45: the returned update is `V D V† F` (real part) with `D = diag(1/ev)`, each entry damped by
`1 / (1 + (cutoff / (|ev| / |ev_max|))^6)` and, when the samples are from Monte Carlo, by the
signal-to-noise ratio (`SnrDamping`); eigenvalues below `1e-14` of the largest are left out. -/
theorem c45_formula_snr (cfg : TdvpCfg n) (r : ℕ) (joint : World (ℝ × (Fin 1 → ℂ) × (Fin (n + 1) → ℂ)))
    (E : SObs (Fin 1)) (G : SObs (Fin (n + 1))) (hi : TdvpInput joint r E G)
    (at₀ at₁ at₂ : TdvpAttrs n) (S : Matrix (Fin (n + 1)) (Fin (n + 1)) ℂ) (F : Fin (n + 1) → ℂ)
    (hSF : getTdvpEquation cfg r (some (E, G)) at₀ = .ok (some (S, F), at₂))
    (res : SolveRes n) (hres : tdvpSolve cfg r (some (E, G)) at₀ = .ok (res, at₁))
    (ev : Fin (n + 1) → ℝ) (V : Matrix (Fin (n + 1)) (Fin (n + 1)) ℂ) (hV : cfg.eigh S = (ev, V))
    (hmax : ev (Fin.last n) ≠ 0) (hc : 0 < cfg.pinvCutoff) (damping : Fin (n + 1) → ℝ)
    (hsnr : cfg.isExact = true ∨
      ∃ snr, at₁.snr = some snr ∧ ∀ k, SnrDamping cfg.snrTol (snr k) (damping k)) :
    res.update = some fun i => (∑ k, V i k * (((if |ev k| / |ev (Fin.last n)| > 1e-14 then 1 / ev k else 0)
      * (1 / (1 + (res.cutoff / (|ev k| / |ev (Fin.last n)|)) ^ 6))
      * (if cfg.isExact then 1 else damping k) : ℝ) : ℂ)
      * ∑ j, (starRingEnd ℂ) (V j k) * F j).re := by
  rw [getTdvpEquation_eq cfg r joint hi.devices hi.weights hi.rank E G hi.data at₀] at hSF
  simp only [Except.ok.injEq, Prod.mk.injEq, Option.some.injEq] at hSF
  obtain ⟨⟨rfl, rfl⟩, _⟩ := hSF
  obtain ⟨snr', s₀, _, hs, _, _, hup⟩ := solve_ok cfg r joint E G hi at₀ at₁ res hres
  have hup := Except.ok.inj hup
  rw [← hup]
  dsimp only
  have hcut : (pinvBody cfg (tdvpEigenbasis cfg (specQS cfg (allSamples joint))
      (specQF cfg (allSamples joint))) snr' (specQF cfg (allSamples joint)) s₀).cutoff
      = s₀.cutoff * (4 / 5) := rfl
  rw [hcut]
  have hmax' : |ev (Fin.last n)| ≠ 0 := abs_ne_zero.mpr hmax
  set c := max (s₀.cutoff * (4 / 5)) cfg.pinvCutoff with hcdef
  have hcpos : 0 < c := lt_of_lt_of_le hc (le_max_right _ _)
  set sp := tdvpEigenbasis cfg (specQS cfg (allSamples joint)) (specQF cfg (allSamples joint)) with hsp
  have hev : sp.ev = ev := by rw [hsp]; exact congrArg Prod.fst hV
  have hVV : sp.V = V := by rw [hsp]; exact congrArg Prod.snd hV
  have hVtF : ∀ k, sp.VtF k = ∑ j, (starRingEnd ℂ) (V j k) * specQF cfg (allSamples joint) j := by
    intro k
    rw [← hVV]
    rfl
  have hinv : ∀ k, sp.invEv k = if |ev k| / |ev (Fin.last n)| > 1e-14 then 1 / ev k else 0 := by
    intro k
    have : sp.invEv k = if (Num.quot |sp.ev k| |sp.ev (Fin.last n)|).gt 1e-14 then 1 / sp.ev k
      else 0 := rfl
    rw [this, hev]
    unfold Num.quot
    rw [if_neg hmax']
    simp only [Num.gt, decide_eq_true_eq]
  have ha : ∀ k, ∃ a, (Num.under c (Num.quot |ev k| |ev (Fin.last n)|)).damp = some a ∧
      (ev k ≠ 0 → a = 1 / (1 + (c / (|ev k| / |ev (Fin.last n)|)) ^ 6)) := by
    intro k
    unfold Num.quot
    rw [if_neg hmax']
    by_cases hk : ev k = 0
    · refine ⟨0, ?_, fun h => absurd hk h⟩
      simp only [Num.under, Num.quot, hk, abs_zero, zero_div, if_true, if_neg hcpos.ne']
      rfl
    · refine ⟨_, ?_, fun _ => rfl⟩
      have : |ev k| / |ev (Fin.last n)| ≠ 0 := div_ne_zero (abs_ne_zero.mpr hk) hmax'
      simp only [Num.under, Num.quot, if_neg this]
      rfl
  have hp : ∀ k, (tdvpRegularizer cfg sp snr' (s₀.cutoff * (4 / 5)) k).map (fun g => sp.invEv k * g)
      = some ((if |ev k| / |ev (Fin.last n)| > 1e-14 then 1 / ev k else 0)
      * (1 / (1 + (c / (|ev k| / |ev (Fin.last n)|)) ^ 6))
      * (if cfg.isExact then 1 else damping k)) := by
    intro k
    obtain ⟨a, ha1, ha2⟩ := ha k
    have hb : ∃ b, tdvpRegularizer cfg sp snr' (s₀.cutoff * (4 / 5)) k = some (a * b) ∧
        b = (if cfg.isExact then 1 else damping k) := by
      refine ⟨_, ?_, rfl⟩
      unfold tdvpRegularizer
      rw [hev, ha1]
      rcases hsnr with hex | ⟨snr, hsn, hdamp⟩
      · rw [if_pos hex, mul_one]
        simp only [hex]
        rfl
      · have : snr' k = snr k := by
          rw [hs] at hsn
          exact congrFun (Option.some.inj hsn) k
        by_cases hex : cfg.isExact = true
        · rw [if_pos hex, mul_one]
          simp only [hex]
          rfl
        · rcases hdamp k with ⟨h1, h2⟩ | ⟨h1, h3, h2⟩ | ⟨x, hx, h1, h2⟩
          · simp only [hex, this, h1, h2, Num.under, Num.damp]
            norm_num
          · simp only [hex, this, h1, h2, Num.under, Num.quot, if_neg h3.ne']
            rfl
          · simp only [hex, this, h1, h2, Num.under, Num.quot, if_neg hx]
            rfl
    obtain ⟨b, hb1, hb2⟩ := hb
    rw [hb1, ← hb2]
    simp only [Option.map_some, hinv]
    congr 1
    by_cases hk : ev k = 0
    · simp [hk]
    · rw [ha2 hk]
      ring
  change Option.map _ (allFinite fun k => (tdvpRegularizer cfg sp snr' (s₀.cutoff * (4 / 5)) k).map
    (fun g => sp.invEv k * g)) = _
  rw [show (fun k => (tdvpRegularizer cfg sp snr' (s₀.cutoff * (4 / 5)) k).map
    (fun g => sp.invEv k * g)) = fun k => some _ from funext hp]
  rw [allFinite_some]
  simp only [Option.map_some, Option.some.injEq]
  funext i
  congr 1
  rw [hVV]
  unfold Matrix.mulVec dotProduct
  refine Finset.sum_congr rfl fun k _ => ?_
  beta_reduce
  rw [hVtF]
  exact (mul_assoc _ _ _).symm

/-- C45: the returned update is `V D V† F` (real part) with `D = diag(1/ev)`, each entry damped by
`1 / (1 + (cutoff / (|ev| / |ev_max|))^6)` and, when the samples are from Monte Carlo, by
`1 / (1 + (snrTol / snr)^6)`; eigenvalues below `1e-14` of the largest are left out. -/
theorem c45_formula (cfg : TdvpCfg n) (r : ℕ) (joint : World (ℝ × (Fin 1 → ℂ) × (Fin (n + 1) → ℂ)))
    (E : SObs (Fin 1)) (G : SObs (Fin (n + 1))) (hi : TdvpInput joint r E G)
    (at₀ at₁ at₂ : TdvpAttrs n) (S : Matrix (Fin (n + 1)) (Fin (n + 1)) ℂ) (F : Fin (n + 1) → ℂ)
    (hSF : getTdvpEquation cfg r (some (E, G)) at₀ = .ok (some (S, F), at₂))
    (res : SolveRes n) (hres : tdvpSolve cfg r (some (E, G)) at₀ = .ok (res, at₁))
    (ev : Fin (n + 1) → ℝ) (V : Matrix (Fin (n + 1)) (Fin (n + 1)) ℂ) (hV : cfg.eigh S = (ev, V))
    (hmax : ev (Fin.last n) ≠ 0) (hc : 0 < cfg.pinvCutoff) (snr : Fin (n + 1) → ℝ)
    (hsnr : cfg.isExact = true ∨ ((∀ k, snr k ≠ 0) ∧ at₁.snr = some fun k => Num.fin (snr k))) :
    res.update = some fun i => (∑ k, V i k * (((if |ev k| / |ev (Fin.last n)| > 1e-14 then 1 / ev k else 0)
      * (1 / (1 + (res.cutoff / (|ev k| / |ev (Fin.last n)|)) ^ 6))
      * (if cfg.isExact then 1 else 1 / (1 + (cfg.snrTol / snr k) ^ 6)) : ℝ) : ℂ)
      * ∑ j, (starRingEnd ℂ) (V j k) * F j).re := by
  refine c45_formula_snr cfg r joint E G hi at₀ at₁ at₂ S F hSF res hres ev V hV hmax hc _ ?_
  rcases hsnr with h | ⟨h1, h2⟩
  · exact Or.inl h
  · exact Or.inr ⟨_, h2, fun k => Or.inr (Or.inr ⟨snr k, h1 k, rfl, rfl⟩)⟩

/-- C45: the recorded signal-to-noise ratio of each eigenvector is `sqrt(N) |V†F| / sigma`, where `sigma ^ 2` is the
weighted variance of the samples of the force in its direction; infinite if only `sigma` is zero and NaN if both are. -/
theorem c45_snr (cfg : TdvpCfg n) (r : ℕ) (joint : World (ℝ × (Fin 1 → ℂ) × (Fin (n + 1) → ℂ)))
    (E : SObs (Fin 1)) (G : SObs (Fin (n + 1))) (hi : TdvpInput joint r E G)
    (hpos : ∀ s ∈ allSamples joint, 0 < s.1)
    (at₀ at₁ at₂ : TdvpAttrs n) (S : Matrix (Fin (n + 1)) (Fin (n + 1)) ℂ) (F : Fin (n + 1) → ℂ)
    (hSF : getTdvpEquation cfg r (some (E, G)) at₀ = .ok (some (S, F), at₂))
    (res : SolveRes n) (hres : tdvpSolve cfg r (some (E, G)) at₀ = .ok (res, at₁))
    (ev : Fin (n + 1) → ℝ) (V : Matrix (Fin (n + 1)) (Fin (n + 1)) ℂ) (hV : cfg.eigh S = (ev, V)) :
    ∃ snr, at₁.snr = some snr ∧ ∀ k,
      let signal := √(cfg.numSamples : ℝ) * ‖∑ j, (starRingEnd ℂ) (V j k) * F j‖
      let sigma := √(wVar (forceSamples cfg V (allSamples joint)) k)
      (sigma ≠ 0 → snr k = .fin (signal / sigma)) ∧
      (sigma = 0 → signal ≠ 0 → snr k = .inf) ∧ (sigma = 0 → signal = 0 → snr k = .nan) := by
  rw [getTdvpEquation_eq cfg r joint hi.devices hi.weights hi.rank E G hi.data at₀] at hSF
  simp only [Except.ok.injEq, Prod.mk.injEq, Option.some.injEq] at hSF
  obtain ⟨⟨rfl, rfl⟩, _⟩ := hSF
  obtain ⟨snr, s₀, h1, hs, _⟩ := solve_ok cfg r joint E G hi at₀ at₁ res hres
  rw [tdvpSnr_eq cfg r joint hi.devices hpos hi.rank E G hi.data] at h1
  have h1 := Except.ok.inj h1
  refine ⟨snr, hs, fun k => ?_⟩
  rw [← h1]
  set sp := tdvpEigenbasis cfg (specQS cfg (allSamples joint)) (specQF cfg (allSamples joint)) with hsp
  have hspV : sp.V = V := by rw [hsp]; exact congrArg Prod.snd hV
  have hVtF : sp.VtF k = ∑ j, (starRingEnd ℂ) (V j k) * specQF cfg (allSamples joint) j := by
    rw [← hspV]
    rfl
  dsimp only
  rw [hspV, hVtF]
  generalize (∑ j, (starRingEnd ℂ) (V j k) * specQF cfg (allSamples joint) j) = z
  have hv : 0 ≤ wVar (forceSamples cfg V (allSamples joint)) k := by
    unfold wVar
    apply List.sum_nonneg
    intro y hy
    obtain ⟨s, hs, rfl⟩ := List.mem_map.mp hy
    obtain ⟨t, ht, rfl⟩ := List.mem_map.mp hs
    exact mul_nonneg (hpos t ht).le (Complex.normSq_nonneg _)
  generalize wVar (forceSamples cfg V (allSamples joint)) k = v at hv
  have hz : √(cfg.numSamples * Complex.normSq z) = √(cfg.numSamples : ℝ) * ‖z‖ := by
    rw [Real.sqrt_mul (Nat.cast_nonneg _), Complex.normSq_eq_norm_sq, Real.sqrt_sq (norm_nonneg z)]
  have hn : (0 : ℝ) ≤ cfg.numSamples * Complex.normSq z := mul_nonneg (Nat.cast_nonneg _) (Complex.normSq_nonneg z)
  rw [← hz]
  unfold Num.quot
  refine ⟨fun h => ?_, fun h h' => ?_, fun h h' => ?_⟩
  · rw [if_neg fun h0 => h (by rw [h0, Real.sqrt_zero])]
    exact congrArg Num.fin (Real.sqrt_div hn v)
  · rw [if_pos ((Real.sqrt_eq_zero hv).1 h), if_neg fun h0 => h' (by rw [h0, Real.sqrt_zero])]
    rfl
  · rw [if_pos ((Real.sqrt_eq_zero hv).1 h), if_pos ((Real.sqrt_eq_zero hn).1 h')]
    rfl

/-- One parameter, two samples on one device. -/
noncomputable def oneJoint : World (ℝ × (Fin 1 → ℂ) × (Fin 1 → ℂ)) :=
  [[[(1 / 2, ![1], ![1]), (1 / 2, ![-1], ![-1])]]]

noncomputable def oneCfg : TdvpCfg 0 := ⟨2, 1e-8, 1e-6, "real", 1, 0, false, true, 2, someEigh⟩

theorem oneSamples : allSamples oneJoint = [(1 / 2, ![1], ![1]), (1 / 2, ![-1], ![-1])] := rfl

theorem one_input : ∃ E G, TdvpInput oneJoint 0 E G := by
  refine tdvpInput_exists _ _ ?_ ?_ ?_
  · intro rk hrk
    simp only [oneJoint, List.mem_cons, List.not_mem_nil, or_false] at hrk
    subst hrk
    simp
  · intro s hs
    rw [oneSamples] at hs
    simp only [List.mem_cons, List.not_mem_nil, or_false] at hs
    rcases hs with rfl | rfl <;> norm_num
  · simp [oneJoint]

theorem oneQS : specQS oneCfg (allSamples oneJoint) = Matrix.of fun _ _ => (1 : ℂ) := by
  unfold specQS
  rw [if_neg (by norm_num [oneCfg])]
  ext i j
  have hi : i = 0 := Fin.fin_one_eq_zero i
  have hj : j = 0 := Fin.fin_one_eq_zero j
  subst hi hj
  simp [specS, wCross, oneSamples, wMean, TdvpCfg.q, oneCfg]
  norm_num

theorem oneQF : specQF oneCfg (allSamples oneJoint) = fun _ => (-1 : ℂ) := by
  funext i
  have hi : i = 0 := Fin.fin_one_eq_zero i
  subst hi
  simp [specQF, specF, wCross, oneSamples, wMean, TdvpCfg.q, oneCfg]
  norm_num

/-- Case: the hypotheses of `c45_residual_partial`, `c45_residual_exact`, `c45_formula` and `c45_snr` are met. -/
example : ∃ E G, TdvpInput oneJoint 0 E G ∧ EighCorrect oneCfg ∧
    ∃ res at₁ at₂ u ρ, tdvpSolve oneCfg 0 (some (E, G)) {} = .ok (res, at₁) ∧
      getTdvpEquation oneCfg 0 (some (E, G)) {} = .ok (some (Matrix.of fun _ _ => (1 : ℂ), fun _ => (-1 : ℂ)), at₂) ∧
      res.update = some u ∧ res.residual = some ρ ∧
      (oneCfg.eigh (Matrix.of fun _ _ => (1 : ℂ))).1 (Fin.last 0) ≠ 0 ∧ ∀ s ∈ allSamples oneJoint, 0 < s.1 := by
  obtain ⟨E, G, hi⟩ := one_input
  have heq := getTdvpEquation_eq oneCfg 0 oneJoint hi.devices hi.weights hi.rank E G hi.data {}
  rw [oneQS, oneQF] at heq
  have hE : EighCorrect oneCfg := someEigh_correct _ rfl
  obtain ⟨res, at₁, hres⟩ := c45_returns_partial oneCfg (by norm_num [oneCfg]) (by norm_num [oneCfg])
    (by norm_num [oneCfg]) 0 oneJoint E G hi {}
  have hH : (Matrix.of fun _ _ => (1 : ℂ) : Matrix (Fin 1) (Fin 1) ℂ).IsHermitian := by
    ext i j
    simp [Matrix.conjTranspose_apply]
  have hev : (oneCfg.eigh (Matrix.of fun _ _ => (1 : ℂ))).1 (Fin.last 0) ≠ 0 := by
    have h := hE _ hH
    intro h0
    have h1 := congrFun (congrFun h.decomp 0) 0
    have h2 := congrFun (congrFun h.unitary 0) 0
    rw [Matrix.mul_diagonal] at h1
    change (oneCfg.eigh (Matrix.of fun _ _ => (1 : ℂ))).1 0 = 0 at h0
    rw [h0] at h1
    simp [Matrix.mul_apply] at h1 h2
    rw [h1] at h2
    simp at h2
  have hu := c45_formula oneCfg 0 oneJoint E G hi {} at₁ _ _ _ heq res hres _ _ rfl hev
    (by norm_num [oneCfg]) (fun _ => 0) (Or.inl rfl)
  obtain ⟨snr, s₀, _, _, _, _, hup⟩ := solve_ok oneCfg 0 oneJoint E G hi {} at₁ res hres
  have hup := Except.ok.inj hup
  have hF : vecNorm (specQF oneCfg (allSamples oneJoint)) ≠ 0 := by
    rw [oneQF]
    simp [vecNorm]
  have hr : ∃ ρ, res.residual = some ρ := by
    rw [← hup] at hu ⊢
    dsimp only at hu ⊢
    unfold pinvBody at hu ⊢
    dsimp only at hu ⊢
    revert hu
    generalize allFinite (fun k => (tdvpRegularizer oneCfg (tdvpEigenbasis oneCfg
        (specQS oneCfg (allSamples oneJoint)) (specQF oneCfg (allSamples oneJoint))) snr
        (s₀.cutoff * (4 / 5)) k).map fun g => (tdvpEigenbasis oneCfg
        (specQS oneCfg (allSamples oneJoint)) (specQF oneCfg (allSamples oneJoint))).invEv k * g) = al
    intro hu
    cases al with
    | none => cases hu
    | some p =>
      dsimp only
      rw [if_neg hF]
      exact ⟨_, rfl⟩
  obtain ⟨ρ, hρ⟩ := hr
  refine ⟨E, G, hi, hE, res, at₁, _, _, ρ, hres, heq, hu, hρ, hev, fun s hs => ?_⟩
  rw [oneSamples] at hs
  simp only [List.mem_cons, List.not_mem_nil, or_false] at hs
  rcases hs with rfl | rfl <;> norm_num

theorem q_zero (cfg : TdvpCfg n) : cfg.q 0 = 0 := by
  unfold TdvpCfg.q
  split <;> simp

theorem wMean_const {A : Type} (l : List A) (w : A → ℝ) (f : A → Fin (n + 1) → ℂ) (j : Fin (n + 1))
    (c : ℂ) (hc : ∀ s ∈ l, f s j = c) (h1 : (l.map w).sum = 1) :
    wMean (l.map fun s => (w s, f s)) j = c := by
  rw [wMean_apply, List.map_map]
  have : ∀ s ∈ l, ((fun s : ℝ × (Fin (n + 1) → ℂ) => (s.1 : ℂ) * s.2 j) ∘ fun s => (w s, f s)) s
      = (fun x : ℝ => (x : ℂ) * c) (w s) := by
    intro s hs
    simp only [Function.comp_apply, hc s hs]
  rw [List.map_congr_left this, ← Function.comp_def (g := w) (f := fun x : ℝ => (x : ℂ) * c), ← List.map_map,
    List.sum_map_mul_right]
  have h2 : ((List.map w l).map fun x : ℝ => (x : ℂ)).sum = ((List.map w l).sum : ℂ) := by
    rw [← Complex.ofRealHom_eq_coe, map_list_sum]
    rfl
  rw [h2, h1]
  simp

/-- C45 is violated (not a number): if the amplitude depends on some parameter only through its
normalisation or global phase (the gradient with respect to it is the same for all samples), and the
other directions are linearly independent, then with a Monte Carlo sampler the whole update is NaN. -/
theorem c45_dead_parameter_violated (cfg : TdvpCfg n) (heigh : EighCorrect cfg)
    (hmc : cfg.isExact = false) (r : ℕ) (joint : World (ℝ × (Fin 1 → ℂ) × (Fin (n + 1) → ℂ)))
    (E : SObs (Fin 1)) (G : SObs (Fin (n + 1))) (hi : TdvpInput joint r E G)
    (hpos : ∀ s ∈ allSamples joint, 0 < s.1) (hone : ((allSamples joint).map fun s => s.1).sum = 1)
    (j : Fin (n + 1)) (c : ℂ) (hdead : ∀ s ∈ allSamples joint, s.2.2 j = c)
    (at₀ at₁ at₂ : TdvpAttrs n) (S : Matrix (Fin (n + 1)) (Fin (n + 1)) ℂ) (F : Fin (n + 1) → ℂ)
    (hSF : getTdvpEquation cfg r (some (E, G)) at₀ = .ok (some (S, F), at₂))
    (k : Fin (n + 1)) (hk : ∀ a, a ≠ k → (cfg.eigh S).1 a ≠ 0)
    (res : SolveRes n) (hres : tdvpSolve cfg r (some (E, G)) at₀ = .ok (res, at₁)) :
    res.update = none ∧ res.residual = none := by
  rw [getTdvpEquation_eq cfg r joint hi.devices hi.weights hi.rank E G hi.data at₀] at hSF
  simp only [Except.ok.injEq, Prod.mk.injEq, Option.some.injEq] at hSF
  obtain ⟨⟨rfl, rfl⟩, _⟩ := hSF
  set l := allSamples joint with hl
  have hmean : wMean (l.map fun s => (s.1, s.2.2)) j = c :=
    wMean_const l (fun s => s.1) (fun s => s.2.2) j c hdead hone
  have hdO : ∀ s ∈ l, s.2.2 j - wMean (l.map fun s => (s.1, s.2.2)) j = 0 := by
    intro s hs
    rw [hmean, hdead s hs, sub_self]
  have hS0 : ∀ i, specS l i j = 0 := by
    intro i
    unfold specS wCross
    rw [Matrix.of_apply]
    apply List.sum_eq_zero
    intro x hx
    simp only [List.map_map, List.mem_map, Function.comp_apply] at hx
    obtain ⟨s, hs, rfl⟩ := hx
    have := hdO s hs
    simp only [Function.comp_def]
    rw [this]
    simp
  have hF0 : specF l j = 0 := by
    unfold specF wCross
    apply List.sum_eq_zero
    intro x hx
    simp only [List.map_map, List.mem_map, Function.comp_apply] at hx
    obtain ⟨s, hs, rfl⟩ := hx
    have := hdO s hs
    simp only [Function.comp_def]
    rw [this]
    simp
  have hQS : ∀ i, specQS cfg l i j = 0 := by
    intro i
    obtain ⟨a, h1, _⟩ := specQS_apply cfg l i j
    rw [h1, hS0, q_zero, mul_zero]
  have hQF : specQF cfg l j = 0 := by
    unfold specQF
    rw [hF0, mul_zero, q_zero]
  have hH := specQS_hermitian cfg l
  have he := heigh _ hH
  generalize hevV : cfg.eigh (specQS cfg l) = eV at he hk
  obtain ⟨ev, V⟩ := eV
  dsimp only at he hk
  -- the row of the parameter in `V`
  have hrow : ∀ a, a ≠ k → V j a = 0 := by
    intro a ha
    have h1 : V.conjTranspose * specQS cfg l = Matrix.diagonal (fun k => (ev k : ℂ)) * V.conjTranspose := by
      have := congrArg Matrix.conjTranspose he.decomp
      rw [Matrix.conjTranspose_mul, Matrix.conjTranspose_mul, hH.eq, Matrix.diagonal_conjTranspose] at this
      rw [this]
      congr 2
      funext b
      simp
    have h2 := congrFun (congrFun h1 a) j
    rw [Matrix.diagonal_mul, Matrix.mul_apply] at h2
    rw [Finset.sum_eq_zero (fun i _ => by rw [hQS, mul_zero])] at h2
    rcases mul_eq_zero.mp h2.symm with h | h
    · exact absurd (by exact_mod_cast h) (hk a ha)
    · rw [Matrix.conjTranspose_apply] at h
      exact star_eq_zero.mp h
  have hVV : V * V.conjTranspose = 1 := mul_eq_one_comm.mp he.unitary
  have hcol : ∀ i, i ≠ j → V i k = 0 := by
    have hone' : ∀ i, V j k * star (V i k) = (1 : Matrix _ _ ℂ) j i := by
      intro i
      rw [← hVV, Matrix.mul_apply, Finset.sum_eq_single k]
      · rfl
      · intro b _ hb
        rw [hrow b hb, zero_mul]
      · simp
    intro i hij
    have h1 := hone' j
    have h2 := hone' i
    rw [Matrix.one_apply_eq] at h1
    rw [Matrix.one_apply_ne (Ne.symm hij)] at h2
    have : V j k ≠ 0 := by
      intro h
      rw [h, zero_mul] at h1
      exact zero_ne_one h1
    rcases mul_eq_zero.mp h2 with h | h
    · exact absurd h this
    · exact star_eq_zero.mp h
  -- signal and noise vanish
  obtain ⟨snr, s₀, hsnr, _, _, _, hup⟩ := solve_ok cfg r joint E G hi at₀ at₁ res hres
  rw [tdvpSnr_eq cfg r joint hi.devices hpos hi.rank E G hi.data] at hsnr
  have hnan : snr k = .nan := by
    rw [← Except.ok.inj hsnr]
    have h1 : (tdvpEigenbasis cfg (specQS cfg l) (specQF cfg l)).VtF k = 0 := by
      have : (tdvpEigenbasis cfg (specQS cfg l) (specQF cfg l)).VtF k
          = ∑ i, star (V i k) * specQF cfg l i := by
        unfold tdvpEigenbasis
        simp only [hevV]
        rfl
      rw [this]
      apply Finset.sum_eq_zero
      intro i _
      by_cases hij : i = j
      · rw [hij, hQF, mul_zero]
      · rw [hcol i hij, star_zero, zero_mul]
    have h2 : wVar (forceSamples cfg (tdvpEigenbasis cfg (specQS cfg l) (specQF cfg l)).V l) k = 0 := by
      have hV : (tdvpEigenbasis cfg (specQS cfg l) (specQF cfg l)).V = V := by
        unfold tdvpEigenbasis
        simp only [hevV]
      rw [hV]
      have hz : ∀ t ∈ forceSamples cfg V l, t.2 k = 0 := by
        intro t ht
        obtain ⟨s, hs, rfl⟩ := List.mem_map.mp ht
        dsimp only
        refine Finset.sum_eq_zero fun i _ => ?_
        by_cases hij : i = j
        · subst hij
          rw [hdO s hs]
          simp [q_zero]
        · rw [hcol i hij, map_zero, zero_mul]
      have hm : wMean (forceSamples cfg V l) k = 0 := by
        rw [wMean_apply]
        apply List.sum_eq_zero
        intro x hx
        obtain ⟨t, ht, rfl⟩ := List.mem_map.mp hx
        rw [hz t ht, mul_zero]
      unfold wVar
      apply List.sum_eq_zero
      intro x hx
      obtain ⟨t, ht, rfl⟩ := List.mem_map.mp hx
      rw [hz t ht, hm]
      simp
    simp only [← hl, h1, h2]
    simp [Num.quot, Num.sqrt]
  have hreg : ∀ c, tdvpRegularizer cfg (tdvpEigenbasis cfg (specQS cfg l) (specQF cfg l)) snr c k = none := by
    intro c
    unfold tdvpRegularizer
    rw [hnan, hmc]
    cases (Num.under (max c cfg.pinvCutoff) (Num.quot
      |(tdvpEigenbasis cfg (specQS cfg l) (specQF cfg l)).ev k|
      |(tdvpEigenbasis cfg (specQS cfg l) (specQF cfg l)).ev (Fin.last n)|)).damp <;> rfl
  have hall : allFinite (fun a => (tdvpRegularizer cfg (tdvpEigenbasis cfg (specQS cfg l) (specQF cfg l))
      snr (s₀.cutoff * (4 / 5)) a).map fun g =>
        (tdvpEigenbasis cfg (specQS cfg l) (specQF cfg l)).invEv a * g) = none :=
    allFinite_none _ k (by rw [hreg]; rfl)
  have hup := Except.ok.inj hup
  rw [← hup]
  constructor
  · change Option.map _ (allFinite (fun a => (tdvpRegularizer cfg (tdvpEigenbasis cfg (specQS cfg l)
      (specQF cfg l)) snr (s₀.cutoff * (4 / 5)) a).map fun g =>
        (tdvpEigenbasis cfg (specQS cfg l) (specQF cfg l)).invEv a * g)) = none
    rw [hall]
    rfl
  · change (match allFinite (fun a => (tdvpRegularizer cfg (tdvpEigenbasis cfg (specQS cfg l)
      (specQF cfg l)) snr (s₀.cutoff * (4 / 5)) a).map fun g =>
        (tdvpEigenbasis cfg (specQS cfg l) (specQF cfg l)).invEv a * g) with
        | none => none
        | some p => _) = none
    rw [hall]

/-- Two parameters, the first multiplies the amplitude by a constant. -/
noncomputable def deadJoint : World (ℝ × (Fin 1 → ℂ) × (Fin 2 → ℂ)) :=
  [[[(1 / 2, ![1], ![1, 1]), (1 / 2, ![-1], ![1, -1])]]]

noncomputable def deadCfg : TdvpCfg 1 := ⟨2, 1e-8, 1e-6, "real", 1, 0, false, false, 2, someEigh⟩

theorem deadSamples : allSamples deadJoint = [(1 / 2, ![1], ![1, 1]), (1 / 2, ![-1], ![1, -1])] := rfl

theorem deadQS : specQS deadCfg (allSamples deadJoint) = !![0, 0; 0, 1] := by
  unfold specQS
  rw [if_neg (by norm_num [deadCfg])]
  ext i j
  fin_cases i <;> fin_cases j <;>
    simp [specS, wCross, deadSamples, wMean, TdvpCfg.q, deadCfg] <;> norm_num

/-- Case: an amplitude with a global factor as parameter. -/
example : ∃ E G, TdvpInput deadJoint 0 E G ∧ ∃ res at₁,
    tdvpSolve deadCfg 0 (some (E, G)) {} = .ok (res, at₁) ∧ res.update = none := by
  obtain ⟨E, G, hi⟩ : ∃ E G, TdvpInput deadJoint 0 E G := by
    refine tdvpInput_exists _ _ ?_ ?_ ?_
    · intro rk hrk
      simp only [deadJoint, List.mem_cons, List.not_mem_nil, or_false] at hrk
      subst hrk
      simp
    · intro s hs
      rw [deadSamples] at hs
      simp only [List.mem_cons, List.not_mem_nil, or_false] at hs
      rcases hs with rfl | rfl <;> norm_num
    · simp [deadJoint]
  have heq := getTdvpEquation_eq deadCfg 0 deadJoint hi.devices hi.weights hi.rank E G hi.data {}
  have hE : EighCorrect deadCfg := someEigh_correct _ rfl
  obtain ⟨res, at₁, hres⟩ := c45_returns_partial deadCfg (by norm_num [deadCfg]) (by norm_num [deadCfg])
    (by norm_num [deadCfg]) 0 deadJoint E G hi {}
  refine ⟨E, G, hi, res, at₁, hres, (c45_dead_parameter_violated deadCfg hE rfl 0 deadJoint E G hi ?_ ?_ 0 1
    ?_ {} at₁ _ _ _ heq 0 ?_ res hres).1⟩
  · intro s hs
    rw [deadSamples] at hs
    simp only [List.mem_cons, List.not_mem_nil, or_false] at hs
    rcases hs with rfl | rfl <;> norm_num
  · rw [deadSamples]
    norm_num
  · intro s hs
    rw [deadSamples] at hs
    simp only [List.mem_cons, List.not_mem_nil, or_false] at hs
    rcases hs with rfl | rfl <;> simp
  · -- the larger eigenvalue is not zero: otherwise the matrix would be negative
    intro a ha h0
    have ha1 : a = 1 := by
      fin_cases a
      · exact absurd rfl ha
      · rfl
    subst ha1
    have h := hE _ (specQS_hermitian deadCfg (allSamples deadJoint))
    have hVV := mul_eq_one_comm.mp h.unitary
    have hSS : specQS deadCfg (allSamples deadJoint)
        = (deadCfg.eigh (specQS deadCfg (allSamples deadJoint))).2
          * Matrix.diagonal (fun k => ((deadCfg.eigh (specQS deadCfg (allSamples deadJoint))).1 k : ℂ))
          * (deadCfg.eigh (specQS deadCfg (allSamples deadJoint))).2.conjTranspose := by
      rw [← h.decomp, Matrix.mul_assoc, hVV, Matrix.mul_one]
    have hle : (deadCfg.eigh (specQS deadCfg (allSamples deadJoint))).1 0
        ≤ (deadCfg.eigh (specQS deadCfg (allSamples deadJoint))).1 1 := h.sorted (by decide)
    generalize deadCfg.eigh (specQS deadCfg (allSamples deadJoint)) = eV at *
    rw [h0] at hle
    have h1 := congrFun (congrFun hSS 1) 1
    rw [deadQS, Matrix.mul_apply, Fin.sum_univ_two, Matrix.mul_diagonal, Matrix.mul_diagonal, h0] at h1
    simp only [Matrix.conjTranspose_apply, Matrix.of_apply, Matrix.cons_val', Matrix.cons_val_one,
      Matrix.cons_val_fin_one, Complex.ofReal_zero, mul_zero, zero_mul, add_zero] at h1
    have h2 := congrArg Complex.re h1
    have : (eV.2 1 0 * (eV.1 0 : ℂ) * star (eV.2 1 0)).re
        = eV.1 0 * ((eV.2 1 0).re ^ 2 + (eV.2 1 0).im ^ 2) := by
      simp
      ring
    rw [this] at h2
    simp at h2
    nlinarith [sq_nonneg (eV.2 1 0).re, sq_nonneg (eV.2 1 0).im]

/-! ## C46 -/

theorem list_sum_finset {A : Type} (l : List A) (f : A → Fin (n + 1) → ℂ) :
    (l.map fun s => ∑ i, f s i).sum = ∑ i, (l.map fun s => f s i).sum := by
  induction l with
  | nil => simp
  | cons a l ih => simp only [List.map_cons, List.sum_cons, ih, Finset.sum_add_distrib]

theorem distance_expand (l : List (ℝ × (Fin 1 → ℂ) × (Fin (n + 1) → ℂ))) (x : ℂ)
    (hx : Complex.normSq x = 1) (u : Fin (n + 1) → ℝ) :
    tdvpDistance l x u = wVar (l.map fun s => (s.1, s.2.1)) 0
      + ((∑ i, (u i : ℂ) * ∑ j, specS l i j * (u j : ℂ))
        - ((2 * (∑ i, (u i : ℂ) * ((-x) * specF l i)).re : ℝ) : ℂ)).re := by
  set mO := wMean (l.map fun s => (s.1, s.2.2)) with hmO
  set mE := wMean (l.map fun s => (s.1, s.2.1)) with hmE
  have hS : (∑ i, (u i : ℂ) * ∑ j, specS l i j * (u j : ℂ))
      = (l.map fun s => (s.1 : ℂ) * ((starRingEnd ℂ) (∑ k, (u k : ℂ) * (s.2.2 k - mO k))
        * (∑ k, (u k : ℂ) * (s.2.2 k - mO k)))).sum := by
    have h1 : ∀ i j, specS l i j = (l.map fun s => (s.1 : ℂ) * ((starRingEnd ℂ) (s.2.2 i - mO i)
        * (s.2.2 j - mO j))).sum := by
      intro i j
      unfold specS wCross
      simp only [Matrix.of_apply, List.map_map, Function.comp_def]
      rfl
    simp only [h1, ← List.sum_map_mul_right]
    rw [show (fun i : Fin (n + 1) => (u i : ℂ) * ∑ j, (l.map fun s => (s.1 : ℂ) * ((starRingEnd ℂ)
        (s.2.2 i - mO i) * (s.2.2 j - mO j)) * (u j : ℂ)).sum)
        = fun i => (l.map fun s => (u i : ℂ) * ∑ j, (s.1 : ℂ) * ((starRingEnd ℂ) (s.2.2 i - mO i)
          * (s.2.2 j - mO j)) * (u j : ℂ)).sum from by
      funext i
      rw [← list_sum_finset, ← List.sum_map_mul_left]]
    rw [← list_sum_finset]
    congr 1
    apply List.map_congr_left
    intro s _
    rw [map_sum, Finset.sum_mul_sum, Finset.mul_sum]
    refine Finset.sum_congr rfl fun i _ => ?_
    rw [Finset.mul_sum, Finset.mul_sum]
    refine Finset.sum_congr rfl fun j _ => ?_
    rw [map_mul, Complex.conj_ofReal]
    ring
  have hF : (∑ i, (u i : ℂ) * ((-x) * specF l i))
      = (l.map fun s => (s.1 : ℂ) * (-x * ((starRingEnd ℂ) (∑ k, (u k : ℂ) * (s.2.2 k - mO k))
        * (s.2.1 0 - mE 0)))).sum := by
    have h1 : ∀ i, specF l i = (l.map fun s => (s.1 : ℂ) * ((starRingEnd ℂ) (s.2.2 i - mO i)
        * (s.2.1 0 - mE 0))).sum := by
      intro i
      unfold specF wCross
      simp only [List.map_map, Function.comp_def]
      rfl
    simp only [h1, ← List.sum_map_mul_left]
    rw [← list_sum_finset]
    congr 1
    apply List.map_congr_left
    intro s _
    rw [map_sum, Finset.sum_mul, Finset.mul_sum, Finset.mul_sum]
    refine Finset.sum_congr rfl fun i _ => ?_
    rw [map_mul, Complex.conj_ofReal]
    ring
  rw [hS, hF, Complex.sub_re, Complex.ofReal_re]
  unfold tdvpDistance wVar
  rw [← hmO, ← hmE, List.map_map]
  simp only [Function.comp_def]
  clear_value mE mO
  clear hS hF hmO hmE
  induction l with
  | nil => simp
  | cons s l ih =>
    simp only [List.map_cons, List.sum_cons]
    rw [ih, Complex.add_re, Complex.add_re]
    generalize (∑ k, (u k : ℂ) * (s.2.2 k - mO k)) = a
    generalize (s.2.1 0 - mE 0) = b
    have : s.1 * Complex.normSq (a + x * b) = s.1 * Complex.normSq b
        + ((s.1 : ℂ) * ((starRingEnd ℂ) a * a)).re
        - 2 * ((s.1 : ℂ) * (-x * ((starRingEnd ℂ) a * b))).re := by
      have hb : Complex.normSq b = Complex.normSq (x * b) := by rw [map_mul, hx, one_mul]
      rw [hb]
      simp only [Complex.normSq_apply, Complex.mul_re, Complex.mul_im, Complex.add_re, Complex.add_im,
        Complex.ofReal_re, Complex.ofReal_im, Complex.conj_re, Complex.conj_im, Complex.neg_re,
        Complex.neg_im]
      ring
    rw [this]
    ring

theorem distance_nonneg (l : List (ℝ × (Fin 1 → ℂ) × (Fin (n + 1) → ℂ))) (hw : ∀ s ∈ l, 0 ≤ s.1)
    (x : ℂ) (u : Fin (n + 1) → ℝ) : 0 ≤ tdvpDistance l x u := by
  unfold tdvpDistance
  apply List.sum_nonneg
  intro y hy
  obtain ⟨s, hs, rfl⟩ := List.mem_map.mp hy
  exact mul_nonneg (hw s hs) (Complex.normSq_nonneg _)

theorem wVar_nonneg {ι : Type} (l : List (ℝ × (ι → ℂ))) (hw : ∀ s ∈ l, 0 ≤ s.1) (k : ι) :
    0 ≤ wVar l k := by
  unfold wVar
  apply List.sum_nonneg
  intro y hy
  obtain ⟨s, hs, rfl⟩ := List.mem_map.mp hy
  exact mul_nonneg (hw s hs) (Complex.normSq_nonneg _)

/-- C46: after the equation has been set up from samples `l` and the variance of the local energies
recorded, the TDVP error of every real update is the distance of the evolved states in units of the energy
variance. -/
theorem c46_error (cfg : TdvpCfg n) (hx : Complex.normSq cfg.rhsPrefactor = 1) (r : ℕ)
    (joint : World (ℝ × (Fin 1 → ℂ) × (Fin (n + 1) → ℂ)))
    (E : SObs (Fin 1)) (G : SObs (Fin (n + 1))) (hi : TdvpInput joint r E G) (at₀ at₁ : TdvpAttrs n)
    (eq : Flt (Matrix (Fin (n + 1)) (Fin (n + 1)) ℂ × (Fin (n + 1) → ℂ)))
    (heq : getTdvpEquation cfg r (some (E, G)) at₀ = .ok (eq, at₁))
    (hvar : wVar ((allSamples joint).map fun s => (s.1, s.2.1)) 0 ≠ 0) (m : ℂ)
    (he : at₁.eloc0 = some (some (m, wVar ((allSamples joint).map fun s => (s.1, s.2.1)) 0)))
    (u : Fin (n + 1) → ℝ) :
    ∃ d, getTdvpError at₁ (some u) = .ok (some d) ∧ 0 ≤ d ∧
      d = tdvpDistance (allSamples joint) cfg.rhsPrefactor u
        / wVar ((allSamples joint).map fun s => (s.1, s.2.1)) 0 := by
  rw [getTdvpEquation_eq cfg r joint hi.devices hi.weights hi.rank E G hi.data at₀] at heq
  simp only [Except.ok.injEq, Prod.mk.injEq] at heq
  obtain ⟨_, rfl⟩ := heq
  dsimp only at he
  have hv := wVar_nonneg ((allSamples joint).map fun s => (s.1, s.2.1)) (by
    intro s hs
    obtain ⟨t, ht, rfl⟩ := List.mem_map.mp hs
    exact hi.weights t ht) 0
  have hd := distance_nonneg (allSamples joint) hi.weights cfg.rhsPrefactor u
  refine ⟨_, ?_, div_nonneg hd hv, rfl⟩
  unfold getTdvpError
  rw [he]
  dsimp only
  rw [if_neg hvar]
  congr 2
  have h := distance_expand (allSamples joint) cfg.rhsPrefactor hx u
  have : (1 : ℝ) + ((∑ i, (u i : ℂ) * ∑ j, specS (allSamples joint) i j * (u j : ℂ))
        - ((2 * (∑ i, (u i : ℂ) * ((-cfg.rhsPrefactor) * specF (allSamples joint) i)).re : ℝ) : ℂ)).re
          / wVar ((allSamples joint).map fun s => (s.1, s.2.1)) 0
      = tdvpDistance (allSamples joint) cfg.rhsPrefactor u
        / wVar ((allSamples joint).map fun s => (s.1, s.2.1)) 0 := by
    rw [h, add_div, div_self hvar]
  change |_| = _
  exact (congrArg abs this).trans (abs_of_nonneg (div_nonneg hd hv))

/-- Case: prefactor `i`, three samples on two ranks, recorded variance of the local energies. -/
example : ∃ E G, TdvpInput demoJoint 1 E G ∧ Complex.normSq demoCfg.rhsPrefactor = 1 ∧
    wVar ((allSamples demoJoint).map fun s => (s.1, s.2.1)) 0 ≠ 0 ∧
    ∃ eq at₁, getTdvpEquation demoCfg 1 (some (E, G)) { eloc0 := some (some (3 / 4,
      wVar ((allSamples demoJoint).map fun s => (s.1, s.2.1)) 0)) } = .ok (eq, at₁) ∧
      at₁.eloc0 = some (some (3 / 4, wVar ((allSamples demoJoint).map fun s => (s.1, s.2.1)) 0)) := by
  obtain ⟨E, G, hi⟩ := demo_input
  have heq := getTdvpEquation_eq demoCfg 1 demoJoint hi.devices hi.weights hi.rank E G hi.data
    { eloc0 := some (some (3 / 4, wVar ((allSamples demoJoint).map fun s => (s.1, s.2.1)) 0)) }
  refine ⟨E, G, hi, by simp [demoCfg], ?_, _, _, heq, rfl⟩
  simp [wVar, wMean, demoJoint, allSamples, Complex.normSq_apply]
  norm_num

/-! ## C48 and the equations -/

/-- C48 is violated: `get_sr_equation` raises `TypeError` for every input. -/
theorem c48_violated (cfg : TdvpCfg n) (r : ℕ) (data : TdvpData n) (at₀ : TdvpAttrs n) :
    getSrEquation cfg r data at₀ = .error .typeError := rfl

/-- The covariance of gradients and local energies, and of the gradients, over weighted samples. -/
noncomputable def forceOf (l : List (ℝ × (Fin 1 → ℂ) × (Fin (n + 1) → ℂ))) (i : Fin (n + 1)) : ℂ :=
  (l.map fun s => (s.1 : ℂ) * ((starRingEnd ℂ) (s.2.2 i - wMean (l.map fun s => (s.1, s.2.2)) i)
    * (s.2.1 0 - wMean (l.map fun s => (s.1, s.2.1)) 0))).sum

noncomputable def fisherOf (l : List (ℝ × (Fin 1 → ℂ) × (Fin (n + 1) → ℂ))) (i j : Fin (n + 1)) : ℂ :=
  (l.map fun s => (s.1 : ℂ) * ((starRingEnd ℂ) (s.2.2 i - wMean (l.map fun s => (s.1, s.2.2)) i)
    * (s.2.2 j - wMean (l.map fun s => (s.1, s.2.2)) j))).sum

theorem specF_eq (l : List (ℝ × (Fin 1 → ℂ) × (Fin (n + 1) → ℂ))) : specF l = forceOf l := by
  funext i
  unfold specF wCross forceOf
  simp only [List.map_map, Function.comp_def]

theorem specS_eq (l : List (ℝ × (Fin 1 → ℂ) × (Fin (n + 1) → ℂ))) (i j : Fin (n + 1)) :
    specS l i j = fisherOf l i j := by
  unfold specS wCross fisherOf
  simp only [Matrix.of_apply, List.map_map, Function.comp_def]

/-- C70: the equation is `F_i = q[-x Cov(O_i, E)]`, `S_ij = q[Cov(O_i, O_j)]`, the diagonal of `S` times
`1 + shift` if the shift exceeds `1e-10`; `q` is the real part, or `i` times the imaginary part. -/
theorem c70_equation (cfg : TdvpCfg n) (r : ℕ) (joint : World (ℝ × (Fin 1 → ℂ) × (Fin (n + 1) → ℂ)))
    (E : SObs (Fin 1)) (G : SObs (Fin (n + 1))) (hi : TdvpInput joint r E G) (at₀ : TdvpAttrs n) :
    ∃ S F at₁, getTdvpEquation cfg r (some (E, G)) at₀ = .ok (some (S, F), at₁) ∧
      (cfg.makeReal ≠ "imag" → ∀ i j,
        S i j = (((if i = j ∧ cfg.diagonalShift > 1e-10 then 1 + cfg.diagonalShift else 1)
          * (fisherOf (allSamples joint) i j).re : ℝ) : ℂ) ∧
        F i = ((-(cfg.rhsPrefactor * forceOf (allSamples joint) i).re : ℝ) : ℂ)) ∧
      (cfg.makeReal = "imag" → ∀ i j,
        S i j = Complex.I * (((if i = j ∧ cfg.diagonalShift > 1e-10 then 1 + cfg.diagonalShift else 1)
          * (fisherOf (allSamples joint) i j).im : ℝ) : ℂ) ∧
        F i = Complex.I * ((-(cfg.rhsPrefactor * forceOf (allSamples joint) i).im : ℝ) : ℂ)) := by
  refine ⟨_, _, _, getTdvpEquation_eq cfg r joint hi.devices hi.weights hi.rank E G hi.data at₀, ?_, ?_⟩
  · intro hq i j
    have hqq : ∀ z, cfg.q z = (z.re : ℂ) := fun z => by unfold TdvpCfg.q; rw [if_neg hq]
    constructor
    · unfold specQS
      by_cases hs : cfg.diagonalShift > 1e-10
      · rw [if_pos hs, Matrix.add_apply, Matrix.of_apply, hqq, specS_eq]
        by_cases hij : i = j
        · subst hij
          rw [if_pos ⟨rfl, hs⟩, Matrix.diagonal_apply_eq, hqq, specS_eq]
          push_cast
          ring
        · rw [if_neg (fun h => hij h.1), Matrix.diagonal_apply_ne _ hij]
          simp
      · rw [if_neg hs, if_neg (fun h => hs h.2), Matrix.of_apply, hqq, specS_eq, one_mul]
    · unfold specQF
      rw [hqq, specF_eq]
      congr 1
      rw [neg_mul, Complex.neg_re]
  · intro hq i j
    have hqq : ∀ z, cfg.q z = Complex.I * (z.im : ℂ) := fun z => by
      unfold TdvpCfg.q
      rw [if_pos hq]
      apply Complex.ext
      · simp
      · simp; ring
    constructor
    · unfold specQS
      by_cases hs : cfg.diagonalShift > 1e-10
      · rw [if_pos hs, Matrix.add_apply, Matrix.of_apply, hqq, specS_eq]
        by_cases hij : i = j
        · subst hij
          rw [if_pos ⟨rfl, hs⟩, Matrix.diagonal_apply_eq, hqq, specS_eq]
          push_cast
          ring
        · rw [if_neg (fun h => hij h.1), Matrix.diagonal_apply_ne _ hij]
          simp
      · rw [if_neg hs, if_neg (fun h => hs h.2), Matrix.of_apply, hqq, specS_eq, one_mul]
    · unfold specQF
      rw [hqq, specF_eq]
      congr 2
      rw [neg_mul, Complex.neg_im]

/-- Case: three samples on two ranks. -/
example : ∃ E G, TdvpInput demoJoint 1 E G := demo_input

/-! ## C44 -/

theorem call_lift {A : Type} (x : Except PyErr A) (st : NqsState) :
    (PsiM.lift x).call st = (x, st) := by
  cases x <;> rfl

/-- The steps of a call that returned. -/
theorem tdvpCall_ok {smp : Type} (env : TdvpEnv n smp) (cfg : TdvpCfg n) (r : ℕ)
    (netP : List ℝ) (t : ℝ) (k : Option ℕ) (sm sm' : smp) (at₀ at₁ : TdvpAttrs n) (st : NqsInit)
    (st' : NqsState) (u : Flt (Fin (n + 1) → ℝ))
    (h : (tdvpCall env cfg r netP t k sm at₀).call (some st) = (.ok (u, at₁, sm'), st')) :
    ∃ p joint E G res atS p', paramUnflatten st.realParams st.sizes netP = .ok p ∧
      env.measure p sm t = .ok (joint, sm') ∧ IsTdvpData joint E G ∧
      tdvpSolve cfg r (some (E, G)) at₀ = .ok (res, atS) ∧
      paramUnflatten st.realParams st.sizes (flattenParams st.params) = .ok p' ∧
      st' = some { st with params := p' } ∧
      (k ≠ some 0 → u = res.update ∧ at₁ = atS) ∧
      (k = some 0 → ∃ err, getTdvpError { atS with eloc0 := atS.eqn.map fun e => e.map fun x =>
          (x.elocMean, x.elocVar) } res.update = .ok err ∧
        (cfg.crossValidation = false → u = res.update ∧ at₁ = { atS with
          eloc0 := atS.eqn.map fun e => e.map fun x => (x.elocMean, x.elocVar)
          metaData := some ⟨err, res.residual, res.cutoff, atS.snr.getD fun _ => .nan,
            (atS.spectrum.getD none).map fun sp => sp.ev, none⟩ }) ∧
        (cfg.crossValidation = true → crossValidate cfg r E G ⟨err, res.residual, res.cutoff,
          atS.snr.getD fun _ => .nan, (atS.spectrum.getD none).map fun sp => sp.ev, none⟩
          { atS with
            eloc0 := atS.eqn.map fun e => e.map fun x => (x.elocMean, x.elocVar)
            metaData := some ⟨err, res.residual, res.cutoff, atS.snr.getD fun _ => .nan,
              (atS.spectrum.getD none).map fun sp => sp.ev, none⟩ } = .ok (u, at₁))) := by
  unfold tdvpCall at h
  rw [bind_ok _ _ _ _ _ (call_getParameters st), call_bind, call_setVec] at h
  cases hp : paramUnflatten st.realParams st.sizes netP with
  | error e => rw [hp] at h; cases h
  | ok p =>
    rw [hp] at h
    dsimp only at h
    rw [bind_ok _ _ _ _ _ (call_getParams _)] at h
    dsimp only at h
    rw [call_bind, call_lift] at h
    cases hm : env.measure p sm t with
    | error e => rw [hm] at h; cases h
    | ok jm =>
      obtain ⟨joint, sm''⟩ := jm
      rw [hm] at h
      dsimp only at h
      rw [call_bind, call_lift] at h
      cases hE : SObs.create (World.map (fun s => (s.1, s.2.1)) joint) with
      | error e => rw [hE] at h; cases h
      | ok E =>
        rw [hE] at h
        dsimp only at h
        rw [call_bind, call_lift] at h
        cases hG : SObs.create (World.map (fun s => (s.1, s.2.2)) joint) with
        | error e => rw [hG] at h; cases h
        | ok G =>
          rw [hG] at h
          dsimp only at h
          rw [call_bind, call_lift] at h
          cases hs : tdvpSolve cfg r (some (E, G)) at₀ with
          | error e => rw [hs] at h; cases h
          | ok ra =>
            obtain ⟨res, atS⟩ := ra
            rw [hs] at h
            dsimp only at h
            rw [call_bind, call_setVec] at h
            dsimp only at h
            cases hp' : paramUnflatten st.realParams st.sizes (flattenParams st.params) with
            | error e => rw [hp'] at h; cases h
            | ok p' =>
              rw [hp'] at h
              dsimp only at h
              refine ⟨p, joint, E, G, res, atS, p', rfl, ?_⟩
              by_cases hk : k = some 0
              · rw [if_pos hk, call_bind, call_lift] at h
                cases he : getTdvpError { atS with eloc0 := atS.eqn.map fun e => e.map fun x =>
                  (x.elocMean, x.elocVar) } res.update with
                | error e => rw [he] at h; cases h
                | ok err =>
                  rw [he] at h
                  dsimp only at h
                  by_cases hcv : cfg.crossValidation = true
                  · rw [if_pos hcv, call_bind, call_lift] at h
                    cases hx : crossValidate cfg r E G ⟨err, res.residual, res.cutoff,
                        atS.snr.getD fun _ => .nan, (atS.spectrum.getD none).map fun sp => sp.ev, none⟩
                        { atS with
                          eloc0 := atS.eqn.map fun e => e.map fun x => (x.elocMean, x.elocVar)
                          metaData := some ⟨err, res.residual, res.cutoff, atS.snr.getD fun _ => .nan,
                            (atS.spectrum.getD none).map fun sp => sp.ev, none⟩ } with
                    | error e => rw [hx] at h; cases h
                    | ok ua =>
                      rw [hx] at h
                      obtain ⟨h1, h2⟩ := Prod.mk.inj h
                      cases h1
                      refine ⟨hm, ⟨hE, hG⟩, hs, rfl, h2.symm, fun h => absurd hk h, fun _ =>
                        ⟨err, rfl, fun h => ?_, fun _ => hx⟩⟩
                      rw [hcv] at h
                      cases h
                  · rw [if_neg hcv] at h
                    obtain ⟨h1, h2⟩ := Prod.mk.inj h
                    cases h1
                    exact ⟨hm, ⟨hE, hG⟩, hs, rfl, h2.symm, fun h => absurd hk h, fun _ =>
                      ⟨err, rfl, fun _ => ⟨rfl, rfl⟩, fun h => absurd h hcv⟩⟩
              · rw [if_neg hk] at h
                obtain ⟨h1, h2⟩ := Prod.mk.inj h
                cases h1
                exact ⟨hm, ⟨hE, hG⟩, hs, rfl, h2.symm, fun _ => ⟨rfl, rfl⟩, fun h => absurd h hk⟩

/-- C44: after every history of calls on `psi`, a call of the TDVP object that returns leaves `psi`
exactly as it was. -/
theorem c44_restores {smp : Type} (env : TdvpEnv n smp) (cfg : TdvpCfg n) (r : ℕ)
    (netP : List ℝ) (t : ℝ) (k : Option ℕ) (sm : smp) (at₀ : TdvpAttrs n) (p₀ : Params)
    (ops : List NqsOp) (hops : ∀ op ∈ ops, op.Fits p₀)
    (a : Flt (Fin (n + 1) → ℝ) × TdvpAttrs n × smp)
    (h : ((tdvpCall env cfg r netP t k sm at₀).call (nqsRun p₀ ops)).1 = .ok a) :
    ((tdvpCall env cfg r netP t k sm at₀).call (nqsRun p₀ ops)).2 = nqsRun p₀ ops := by
  cases hst : nqsRun p₀ ops with
  | none => rw [hst] at h; cases h
  | some st =>
    rw [hst] at h
    have hw := wf_run p₀ ops hops st hst
    obtain ⟨u, at₁, sm'⟩ := a
    obtain ⟨p, joint, E, G, res, atS, p', _, _, _, _, hp', hs, _⟩ :=
      tdvpCall_ok env cfg r netP t k sm sm' at₀ at₁ st _ u (Prod.ext h rfl)
    refine hs.trans ?_
    rw [hw.1, ← hw.2.2.1, hw.2.1, ← hw.2.2.2, flattenParams_unflatten] at hp'
    obtain rfl := Except.ok.inj hp'
    rfl

/-- C44 (exceptions): if sampling, the local energies or the gradients raise, `psi` is left with the
parameters of the call. -/
theorem c44_exception_leaves_parameters {smp : Type} (env : TdvpEnv n smp) (cfg : TdvpCfg n) (r : ℕ)
    (netP : List ℝ) (t : ℝ) (k : Option ℕ) (sm : smp) (at₀ : TdvpAttrs n) (st : NqsInit) (p : Params)
    (hp : paramUnflatten st.realParams st.sizes netP = .ok p) (e : PyErr)
    (he : env.measure p sm t = .error e) :
    (tdvpCall env cfg r netP t k sm at₀).call (some st) = (.error e, some { st with params := p }) := by
  unfold tdvpCall
  rw [bind_ok _ _ _ _ _ (call_getParameters st), call_bind, call_setVec, hp]
  dsimp only
  rw [bind_ok _ _ _ _ _ (call_getParams _)]
  dsimp only
  rw [call_bind, call_lift, he]

/-- Case: a network with two parameters whose sampler raises. -/
example : ∃ p, paramUnflatten true [2] [3, 4] = .ok p := ⟨.real [[3, 4]], rfl⟩

theorem equation_attrs (cfg : TdvpCfg n) (r : ℕ) (data : TdvpData n) (at₀ at₁ : TdvpAttrs n)
    (eq : Flt (Matrix (Fin (n + 1)) (Fin (n + 1)) ℂ × (Fin (n + 1) → ℂ)))
    (h : getTdvpEquation cfg r data at₀ = .ok (eq, at₁)) :
    ∃ e, ∀ at₂, getTdvpEquation cfg r data at₂ = .ok (eq, { at₂ with eqn := some e }) := by
  unfold getTdvpEquation at h ⊢
  cases data with
  | none =>
    dsimp only at h ⊢
    cases h
    exact ⟨none, fun at₂ => rfl⟩
  | some EG =>
    obtain ⟨E, G⟩ := EG
    dsimp only at h ⊢
    change Except.bind (atRank r E.mean) _ = _ at h
    change ∃ e, ∀ at₂, Except.bind (atRank r E.mean) _ = _
    cases h1 : atRank r E.mean with
    | error e => rw [h1] at h; cases h
    | ok mean =>
      rw [h1] at h
      change Except.bind E.var _ = _ at h
      change ∃ e, ∀ at₂, Except.bind E.var _ = _
      cases h2 : E.var with
      | error e => rw [h2] at h; cases h
      | ok var =>
        rw [h2] at h
        change Except.bind (atRank r var) _ = _ at h
        change ∃ e, ∀ at₂, Except.bind (atRank r var) _ = _
        cases h3 : atRank r var with
        | error e => rw [h3] at h; cases h
        | ok v =>
          rw [h3] at h
          change Except.bind (G.covar E) _ = _ at h
          change ∃ e, ∀ at₂, Except.bind (G.covar E) _ = _
          cases h4 : G.covar E with
          | error e => rw [h4] at h; cases h
          | ok f =>
            rw [h4] at h
            change Except.bind (atRank r f) _ = _ at h
            change ∃ e, ∀ at₂, Except.bind (atRank r f) _ = _
            cases h5 : atRank r f with
            | error e => rw [h5] at h; cases h
            | ok f' =>
              rw [h5] at h
              change Except.bind (G.covar G) _ = _ at h
              change ∃ e, ∀ at₂, Except.bind (G.covar G) _ = _
              cases h6 : G.covar G with
              | error e => rw [h6] at h; cases h
              | ok g =>
                rw [h6] at h
                change Except.bind (atRank r g) _ = _ at h
                change ∃ e, ∀ at₂, Except.bind (atRank r g) _ = _
                cases h7 : atRank r g with
                | error e => rw [h7] at h; cases h
                | ok g' =>
                  rw [h7] at h
                  cases h
                  exact ⟨_, fun at₂ => rfl⟩

/-- `solve` overwrites `eqn`, `S`, `spectrum`, `snr`, with values that do not depend on the attributes. -/
theorem solve_attrs (cfg : TdvpCfg n) (r : ℕ) (data : TdvpData n) (at₀ at₁ : TdvpAttrs n)
    (res : SolveRes n) (h : tdvpSolve cfg r data at₀ = .ok (res, at₁)) :
    ∃ eq e sp snr, (∀ at₂, getTdvpEquation cfg r data at₂ = .ok (eq, { at₂ with eqn := some e })) ∧
      ∀ at₂, tdvpSolve cfg r data at₂ = .ok (res, { at₂ with
        eqn := some e
        S := some (eq.map Prod.fst)
        spectrum := some sp
        snr := some snr }) := by
  unfold tdvpSolve at h
  change Except.bind (getTdvpEquation cfg r data at₀) _ = _ at h
  cases h1 : getTdvpEquation cfg r data at₀ with
  | error e => rw [h1] at h; cases h
  | ok x =>
    obtain ⟨eq, atE⟩ := x
    obtain ⟨e, he⟩ := equation_attrs cfg r data at₀ atE eq h1
    rw [h1] at h
    cases eq with
    | none =>
      change (if _ then _ else _ : Except PyErr _) = _ at h
      split at h
      · rename_i hc
        have hh : res = ⟨none, none, max (1e-2 * (4 / 5)) cfg.pinvCutoff⟩ := by
          have := Except.ok.inj h
          exact (congrArg Prod.fst this).symm
        refine ⟨none, e, none, fun _ => .nan, he, fun at₂ => ?_⟩
        unfold tdvpSolve
        rw [he at₂]
        change (if _ then _ else _ : Except PyErr _) = _
        rw [if_pos hc, hh]
        rfl
      · cases h
    | some SF =>
      obtain ⟨S, F⟩ := SF
      cases data with
      | none =>
        change (if _ then _ else _ : Except PyErr _) = _ at h
        have h2 := he at₀
        unfold getTdvpEquation at h2
        cases h2
      | some EG =>
        obtain ⟨E, G⟩ := EG
        change Except.bind (tdvpSnr cfg r E G (tdvpEigenbasis cfg S F)) _ = _ at h
        cases h3 : tdvpSnr cfg r E G (tdvpEigenbasis cfg S F) with
        | error e => rw [h3] at h; cases h
        | ok snr =>
          rw [h3] at h
          change (match pinvLoop cfg (tdvpEigenbasis cfg S F) snr F with
            | none => Except.error PyErr.noReturn
            | some s => Except.bind (tdvpUpdate cfg (tdvpEigenbasis cfg S F) s) _) = _ at h
          cases h4 : pinvLoop cfg (tdvpEigenbasis cfg S F) snr F with
          | none => rw [h4] at h; cases h
          | some s =>
            rw [h4] at h
            dsimp only at h
            cases h5 : tdvpUpdate cfg (tdvpEigenbasis cfg S F) s with
            | error e => rw [h5] at h; cases h
            | ok res' =>
              rw [h5] at h
              have hh : res' = res := congrArg Prod.fst (Except.ok.inj h)
              subst hh
              refine ⟨some (S, F), e, some (tdvpEigenbasis cfg S F), snr, he, fun at₂ => ?_⟩
              unfold tdvpSolve
              rw [he at₂]
              change Except.bind (tdvpSnr cfg r E G (tdvpEigenbasis cfg S F)) _ = _
              rw [h3]
              change (match pinvLoop cfg (tdvpEigenbasis cfg S F) snr F with
                | none => Except.error PyErr.noReturn
                | some s => Except.bind (tdvpUpdate cfg (tdvpEigenbasis cfg S F) s) _) = _
              rw [h4]
              dsimp only
              rw [h5]
              rfl

/-- Cross validation returns the update for all samples and leaves the attributes of that solution. -/
theorem crossValidate_ok (cfg : TdvpCfg n) (r : ℕ) (E : SObs (Fin 1)) (G : SObs (Fin (n + 1)))
    (m : TdvpMeta n) (at₀ at₁ : TdvpAttrs n) (u : Flt (Fin (n + 1) → ℝ))
    (h : crossValidate cfg r E G m at₀ = .ok (u, at₁)) :
    ∃ res atS cv, tdvpSolve cfg r (some (E, G)) at₀ = .ok (res, atS) ∧ u = res.update ∧
      at₁ = { atS with metaData := some { m with crossValidation := some cv } } := by
  unfold crossValidate at h
  change Except.bind (E.subset (some 0) none (some 2)) _ = _ at h
  cases h1 : E.subset (some 0) none (some 2) with
  | error e => rw [h1] at h; cases h
  | ok E1 =>
    rw [h1] at h
    change Except.bind (G.subset (some 0) none (some 2)) _ = _ at h
    cases h2 : G.subset (some 0) none (some 2) with
    | error e => rw [h2] at h; cases h
    | ok G1 =>
      rw [h2] at h
      change Except.bind (E.subset (some 1) none (some 2)) _ = _ at h
      cases h3 : E.subset (some 1) none (some 2) with
      | error e => rw [h3] at h; cases h
      | ok E2 =>
        rw [h3] at h
        change Except.bind (G.subset (some 1) none (some 2)) _ = _ at h
        cases h4 : G.subset (some 1) none (some 2) with
        | error e => rw [h4] at h; cases h
        | ok G2 =>
          rw [h4] at h
          change Except.bind (tdvpSolve cfg r (bothFinite E1 G1) at₀) _ = _ at h
          cases h5 : tdvpSolve cfg r (bothFinite E1 G1) at₀ with
          | error e => rw [h5] at h; cases h
          | ok ra =>
            obtain ⟨res1, atA⟩ := ra
            rw [h5] at h
            change Except.bind (getTdvpEquation cfg r (bothFinite E2 G2) atA) _ = _ at h
            cases h6 : getTdvpEquation cfg r (bothFinite E2 G2) atA with
            | error e => rw [h6] at h; cases h
            | ok eb =>
              obtain ⟨eq2, atB⟩ := eb
              rw [h6] at h
              change Except.bind (getTdvpError atB res1.update) _ = _ at h
              cases h7 : getTdvpError atB res1.update with
              | error e => rw [h7] at h; cases h
              | ok ve =>
                rw [h7] at h
                change Except.bind (tdvpSolve cfg r (some (E, G)) atB) _ = _ at h
                cases h8 : tdvpSolve cfg r (some (E, G)) atB with
                | error e => rw [h8] at h; cases h
                | ok rc =>
                  obtain ⟨res, atC⟩ := rc
                  rw [h8] at h
                  change Except.bind (getTdvpEquation cfg r (some (E, G)) _) _ = _ at h
                  obtain ⟨eq, e, sp, snr, heq, hsol⟩ := solve_attrs cfg r _ atB atC res h8
                  rw [hsol atB] at h8
                  have hC := (congrArg Prod.snd (Except.ok.inj h8)).symm
                  dsimp only at hC
                  subst hC
                  rw [heq] at h
                  obtain ⟨eq1, e1, sp1, snr1, heq1, hsol1⟩ := solve_attrs cfg r _ at₀ atA res1 h5
                  rw [hsol1 at₀] at h5
                  have hA := (congrArg Prod.snd (Except.ok.inj h5)).symm
                  dsimp only at hA
                  subst hA
                  obtain ⟨e2, heq2⟩ := equation_attrs cfg r _ _ atB eq2 h6
                  rw [heq2] at h6
                  have hB := (congrArg Prod.snd (Except.ok.inj h6)).symm
                  dsimp only at hB
                  subst hB
                  have h := Except.ok.inj h
                  have h' := (congrArg Prod.snd h).symm
                  dsimp only at h'
                  exact ⟨res, _, _, hsol at₀, (congrArg Prod.fst h).symm, h'⟩

/-- C44: switching cross validation on changes neither the update nor `psi`, the sampler, the stored
equation, `S`, the spectrum, the signal-to-noise ratios, or the other entries of the metadata. -/
theorem c44_cross_validation {smp : Type} (env : TdvpEnv n smp) (cfg : TdvpCfg n) (r : ℕ)
    (netP : List ℝ) (t : ℝ) (k : Option ℕ) (sm s₁ s₂ : smp) (at₀ a₁ a₂ : TdvpAttrs n) (st : NqsInit)
    (st₁ st₂ : NqsState) (u₁ u₂ : Flt (Fin (n + 1) → ℝ))
    (h₁ : (tdvpCall env { cfg with crossValidation := false } r netP t k sm at₀).call (some st)
      = (.ok (u₁, a₁, s₁), st₁))
    (h₂ : (tdvpCall env { cfg with crossValidation := true } r netP t k sm at₀).call (some st)
      = (.ok (u₂, a₂, s₂), st₂)) :
    u₂ = u₁ ∧ st₂ = st₁ ∧ s₂ = s₁ ∧ a₂.S = a₁.S ∧ a₂.eqn = a₁.eqn ∧ a₂.spectrum = a₁.spectrum ∧
      a₂.snr = a₁.snr ∧ a₂.eloc0 = a₁.eloc0 ∧
      a₂.metaData.map (fun m => { m with crossValidation := none })
        = a₁.metaData.map (fun m => { m with crossValidation := none }) := by
  obtain ⟨p, joint, E, G, res, atS, p', hp, hm, hd, hs, hp', hst, hn, hz⟩ :=
    tdvpCall_ok env _ r netP t k sm s₁ at₀ a₁ st st₁ u₁ h₁
  obtain ⟨q, joint₂, E₂, G₂, res₂, atS₂, q', hq, hm₂, hd₂, hs₂, hq', hst₂, hn₂, hz₂⟩ :=
    tdvpCall_ok env _ r netP t k sm s₂ at₀ a₂ st st₂ u₂ h₂
  rw [hp] at hq
  obtain rfl := Except.ok.inj hq
  rw [hm] at hm₂
  obtain ⟨rfl, rfl⟩ := Prod.mk.inj (Except.ok.inj hm₂)
  obtain rfl : E = E₂ := Except.ok.inj (hd.1.symm.trans hd₂.1)
  obtain rfl : G = G₂ := Except.ok.inj (hd.2.symm.trans hd₂.2)
  rw [hp'] at hq'
  obtain rfl := Except.ok.inj hq'
  have hss : tdvpSolve { cfg with crossValidation := true } r (some (E, G)) at₀
      = tdvpSolve { cfg with crossValidation := false } r (some (E, G)) at₀ := rfl
  rw [hss, hs] at hs₂
  obtain ⟨rfl, rfl⟩ := Prod.mk.inj (Except.ok.inj hs₂)
  subst hst hst₂
  by_cases hk : k = some 0
  · obtain ⟨err, he, hf, _⟩ := hz hk
    obtain ⟨err₂, he₂, _, ht⟩ := hz₂ hk
    rw [he] at he₂
    obtain rfl := Except.ok.inj he₂
    obtain ⟨rfl, rfl⟩ := hf rfl
    obtain ⟨res', atS', cv, hs', hu, ha⟩ := crossValidate_ok _ r E G _ _ a₂ u₂ (ht rfl)
    obtain ⟨eq, e, sp, snr, heq, hsol⟩ := solve_attrs _ r _ at₀ atS res hs
    rw [hsol at₀] at hs
    have hA := (congrArg Prod.snd (Except.ok.inj hs)).symm
    dsimp only at hA
    have hs'' := hs'.symm.trans (show tdvpSolve { cfg with crossValidation := true } r (some (E, G)) _
      = _ from hsol _)
    obtain ⟨hr, hat⟩ := Prod.mk.inj (Except.ok.inj hs'')
    subst hr hat ha hu hA
    exact ⟨rfl, rfl, rfl, rfl, rfl, rfl, rfl, rfl, rfl⟩
  · obtain ⟨rfl, rfl⟩ := hn hk
    obtain ⟨rfl, rfl⟩ := hn₂ hk
    exact ⟨rfl, rfl, rfl, rfl, rfl, rfl, rfl, rfl, rfl⟩

/-- `subset` of samples whose total weight is zero: NaN. -/
theorem subset_zero {ι : Type} (world : World (ℝ × (ι → ℂ))) (h : ∀ r ∈ world, r ≠ [])
    (hne : 0 < List.length world) (start stop step : Option ℤ) (hs : step ≠ some 0)
    (hn : ((allSamples (world.slice start stop step)).map fun s => s.1).sum = 0) (o : SObs ι)
    (ho : SObs.create world = .ok o) : o.subset start stop step = .ok none := by
  rw [create_eq world h] at ho
  obtain rfl := Except.ok.inj ho
  have hsl := slice_ne start stop step world h
  have hlen : List.length (world.slice start stop step) = List.length world := by
    unfold World.slice; simp
  set sel := world.slice start stop step with hsel
  set m := wMean (allSamples world) with hm
  unfold SObs.subset
  dsimp only
  rw [sel_eq _ _ _ _ hs, ← hsel]
  change Except.bind (globalSum _) _ = _
  rw [World.map_map, globalSum_wmap _ _ hsl, hn]
  change Except.bind (globalSum _) _ = _
  have hc1 : List.map (fun _ => (0 : ℝ)) sel = List.map (fun _ => (0 : ℝ))
      (World.map (fun s => (s.1, fun i => (Real.sqrt s.1 : ℂ) * (s.2 i - m i))) sel) := by
    rw [World.const_map]
  rw [hc1, zipWith_map_self]
  have hrows : (List.map (fun rk => List.map (fun dev => List.map (fun s : ℝ × (ι → ℂ) =>
      (s.1 / 0, fun i => s.2 i / (Real.sqrt 0 : ℂ))) dev) rk)
      (World.map (fun s => (s.1, fun i => (Real.sqrt s.1 : ℂ) * (s.2 i - m i))) sel))
      = World.map (fun s => (s.1 / 0, fun i =>
        (Real.sqrt s.1 : ℂ) * (s.2 i - m i) / (Real.sqrt 0 : ℂ))) sel := by
    exact World.map_map _ _ _
  rw [hrows, globalSum_dev _ _ (World.map_ne _ _ hsl)]
  change (if _ then _ else _) = _
  rw [if_neg]
  · rfl
  · rw [World.const_map, List.all_eq_true]
    intro hall
    have : sel ≠ [] := by
      intro h0
      rw [h0] at hlen
      simp only [List.length_nil] at hlen
      omega
    obtain ⟨a, l, hal⟩ := List.exists_cons_of_ne_nil this
    have := hall 0 (by rw [hal]; simp)
    simp at this

theorem slice_map {A B : Type} (f : A → B) (start stop step : Option ℤ) (w : World A) :
    World.slice start stop step (World.map f w) = World.map f (World.slice start stop step w) := by
  unfold World.slice World.map
  simp only [List.map_map]
  apply List.map_congr_left
  intro rk _
  simp only [Function.comp_apply, List.map_map]
  apply List.map_congr_left
  intro dev _
  simp only [Function.comp_apply, List.length_map, List.map_filterMap]
  congr 1
  funext i
  simp

/-- The two halves of the data in cross validation: NaN, or data of valid samples. -/
theorem subset_cases (joint : World (ℝ × (Fin 1 → ℂ) × (Fin (n + 1) → ℂ))) (r : ℕ)
    (E : SObs (Fin 1)) (G : SObs (Fin (n + 1))) (hi : TdvpInput joint r E G)
    (start stop step : Option ℤ) (hs : step ≠ some 0) :
    ∃ E' G', E.subset start stop step = .ok E' ∧ G.subset start stop step = .ok G' ∧
      (bothFinite E' G' = none ∨ ∃ joint' E₁ G₁, bothFinite E' G' = some (E₁, G₁) ∧
        TdvpInput joint' r E₁ G₁) := by
  have hsl := slice_ne start stop step joint hi.devices
  have hE : ((allSamples (World.slice start stop step (World.map (fun s => (s.1, s.2.1)) joint))).map
      fun s => s.1).sum = ((allSamples (World.slice start stop step joint)).map fun s => s.1).sum := by
    rw [slice_map, allSamples_wmap, List.map_map]
    rfl
  have hG : ((allSamples (World.slice start stop step (World.map (fun s => (s.1, s.2.2)) joint))).map
      fun s => s.1).sum = ((allSamples (World.slice start stop step joint)).map fun s => s.1).sum := by
    rw [slice_map, allSamples_wmap, List.map_map]
    rfl
  have hwE : ∀ s ∈ allSamples (World.map (fun s : ℝ × (Fin 1 → ℂ) × (Fin (n + 1) → ℂ) =>
      (s.1, s.2.1)) joint), 0 ≤ s.1 := by
    intro s hs
    rw [allSamples_wmap] at hs
    obtain ⟨t, ht, rfl⟩ := List.mem_map.mp hs
    exact hi.weights t ht
  have hwG : ∀ s ∈ allSamples (World.map (fun s : ℝ × (Fin 1 → ℂ) × (Fin (n + 1) → ℂ) =>
      (s.1, s.2.2)) joint), 0 ≤ s.1 := by
    intro s hs
    rw [allSamples_wmap] at hs
    obtain ⟨t, ht, rfl⟩ := List.mem_map.mp hs
    exact hi.weights t ht
  have hws : ∀ s ∈ allSamples (World.slice start stop step joint), 0 ≤ s.1 := fun s h =>
    hi.weights s (slice_mem _ _ _ _ s h)
  have hnn : 0 ≤ ((allSamples (World.slice start stop step joint)).map fun s => s.1).sum := by
    apply List.sum_nonneg
    intro x hx
    obtain ⟨s, hs, rfl⟩ := List.mem_map.mp hx
    exact hws s hs
  have hr : 0 < List.length joint := lt_of_le_of_lt (Nat.zero_le _) hi.rank
  rcases hnn.lt_or_eq with hpos | hz
  · obtain ⟨o, E₁, ho, hsub, hc⟩ := c42_subset (World.map (fun s => (s.1, s.2.1)) joint)
      (World.map_ne _ _ hi.devices) hwE start stop step hs (by rw [hE]; exact hpos)
    obtain ⟨o', G₁, ho', hsub', hc'⟩ := c42_subset (World.map (fun s => (s.1, s.2.2)) joint)
      (World.map_ne _ _ hi.devices) hwG start stop step hs (by rw [hG]; exact hpos)
    obtain rfl := Except.ok.inj (ho.symm.trans hi.data.1)
    obtain rfl := Except.ok.inj (ho'.symm.trans hi.data.2)
    refine ⟨some E₁, some G₁, hsub, hsub', Or.inr ⟨World.map (fun s => (s.1
      / ((allSamples (World.slice start stop step joint)).map fun s => s.1).sum, s.2))
      (World.slice start stop step joint), E₁, G₁, rfl, World.map_ne _ _ hsl, ?_, ?_, ?_, ?_⟩⟩
    · intro s hs
      rw [allSamples_wmap] at hs
      obtain ⟨t, ht, rfl⟩ := List.mem_map.mp hs
      exact div_nonneg (hws t ht) hnn
    · have := hi.rank
      simpa [World.slice, World.map] using this
    · rw [hE, slice_map, World.map_map] at hc
      rw [World.map_map]
      exact hc
    · rw [hG, slice_map, World.map_map] at hc'
      rw [World.map_map]
      exact hc'
  · refine ⟨none, none, ?_, ?_, Or.inl rfl⟩
    · exact subset_zero _ (World.map_ne _ _ hi.devices) (by simpa [World.map] using hr) _ _ _ hs
        (hE.trans hz.symm) _ hi.data.1
    · exact subset_zero _ (World.map_ne _ _ hi.devices) (by simpa [World.map] using hr) _ _ _ hs
        (hG.trans hz.symm) _ hi.data.2

theorem solve_returns (cfg : TdvpCfg n) (hc : 0 < cfg.pinvCutoff) (hc' : cfg.pinvCutoff < 1e-2)
    (ht : cfg.pinvTol < 1) (r : ℕ) (data : TdvpData n)
    (hd : data = none ∨ ∃ joint E G, data = some (E, G) ∧ TdvpInput joint r E G) (at₀ : TdvpAttrs n) :
    ∃ res at₁, tdvpSolve cfg r data at₀ = .ok (res, at₁) := by
  rcases hd with rfl | ⟨joint, E, G, rfl, hi⟩
  · unfold tdvpSolve
    change ∃ res at₁, (if 1 > cfg.pinvTol ∧ 1e-2 > cfg.pinvCutoff then _ else _ : Except PyErr _) = _
    rw [if_pos ⟨ht, hc'⟩]
    exact ⟨_, _, rfl⟩
  · exact c45_returns_partial cfg hc hc' ht r joint E G hi at₀

theorem crossValidate_returns (cfg : TdvpCfg n) (hc : 0 < cfg.pinvCutoff) (hc' : cfg.pinvCutoff < 1e-2)
    (ht : cfg.pinvTol < 1) (r : ℕ) (joint : World (ℝ × (Fin 1 → ℂ) × (Fin (n + 1) → ℂ)))
    (E : SObs (Fin 1)) (G : SObs (Fin (n + 1))) (hi : TdvpInput joint r E G) (m : TdvpMeta n)
    (at₀ : TdvpAttrs n) (he : at₀.eloc0 ≠ none) :
    ∃ u at₁, crossValidate cfg r E G m at₀ = .ok (u, at₁) := by
  obtain ⟨E1, G1, h1, h2, hd1⟩ := subset_cases joint r E G hi (some 0) none (some 2) (by decide)
  obtain ⟨E2, G2, h3, h4, hd2⟩ := subset_cases joint r E G hi (some 1) none (some 2) (by decide)
  have hd1' : bothFinite E1 G1 = none ∨ ∃ joint E G, bothFinite E1 G1 = some (E, G) ∧
    TdvpInput joint r E G := hd1
  obtain ⟨res1, atA, h5⟩ := solve_returns cfg hc hc' ht r (bothFinite E1 G1) hd1' at₀
  obtain ⟨_, atX, h6⟩ := solve_returns cfg hc hc' ht r (bothFinite E2 G2) hd2 atA
  obtain ⟨eq2, e2, _, _, heq2, _⟩ := solve_attrs cfg r _ atA atX _ h6
  obtain ⟨_, _, _, _, _, hsol1⟩ := solve_attrs cfg r _ at₀ atA res1 h5
  rw [hsol1 at₀] at h5
  have hA := (congrArg Prod.snd (Except.ok.inj h5)).symm
  dsimp only at hA
  subst hA
  obtain ⟨res, atS, h7⟩ := solve_returns cfg hc hc' ht r (some (E, G)) (Or.inr ⟨joint, E, G, rfl, hi⟩) at₀
  obtain ⟨eq, e, sp, snr, heq, hsol⟩ := solve_attrs cfg r _ at₀ atS res h7
  unfold crossValidate
  rw [h1]
  change ∃ u at₁, Except.bind (G.subset (some 0) none (some 2)) _ = _
  rw [h2]
  change ∃ u at₁, Except.bind (E.subset (some 1) none (some 2)) _ = _
  rw [h3]
  change ∃ u at₁, Except.bind (G.subset (some 1) none (some 2)) _ = _
  rw [h4]
  change ∃ u at₁, Except.bind (tdvpSolve cfg r (bothFinite E1 G1) at₀) _ = _
  rw [hsol1]
  change ∃ u at₁, Except.bind (getTdvpEquation cfg r (bothFinite E2 G2) _) _ = _
  rw [heq2]
  change ∃ u at₁, Except.bind (getTdvpError _ res1.update) _ = _
  have herr : ∀ at₁ : TdvpAttrs n, at₁.eqn ≠ none → at₁.eloc0 ≠ none → ∀ u,
      ∃ x, getTdvpError at₁ u = .ok x := by
    intro at₁ hq hl u
    unfold getTdvpError
    split
    · split
      · exact ⟨_, rfl⟩
      · split
        · exact ⟨_, rfl⟩
        · exact ⟨_, rfl⟩
    · exact ⟨_, rfl⟩
    · rename_i h8 h9
      exfalso
      obtain ⟨a, ha⟩ := Option.ne_none_iff_exists'.mp hq
      obtain ⟨b, hb⟩ := Option.ne_none_iff_exists'.mp hl
      exact h9 a b ha hb
  generalize hg : getTdvpError _ res1.update = g
  obtain ⟨x, rfl⟩ : ∃ x, g = .ok x := by
    rw [← hg]
    refine herr _ ?_ ?_ _
    · simp
    · exact he
  change ∃ u at₁, Except.bind (tdvpSolve cfg r (some (E, G)) _) _ = _
  rw [hsol]
  change ∃ u at₁, Except.bind (getTdvpEquation cfg r (some (E, G)) _) _ = _
  rw [heq]
  exact ⟨_, _, rfl⟩

/-- C44: for settings with `0 < pinvCutoff < 0.01`, `pinvTol < 1`, a call with parameters of the right
length returns, with and without cross validation, whatever the (valid) samples are. -/
theorem c44_returns {smp : Type} (env : TdvpEnv n smp) (cfg : TdvpCfg n) (hc : 0 < cfg.pinvCutoff)
    (hc' : cfg.pinvCutoff < 1e-2) (ht : cfg.pinvTol < 1) (r : ℕ)
    (netP : List ℝ) (t : ℝ) (k : Option ℕ) (sm sm' : smp) (at₀ : TdvpAttrs n) (p₀ : Params)
    (ops : List NqsOp) (hops : ∀ op ∈ ops, op.Fits p₀) (hinit : nqsRun p₀ ops ≠ none)
    (p : Params) (hp : paramUnflatten p₀.isReal p₀.sizes netP = .ok p)
    (joint : World (ℝ × (Fin 1 → ℂ) × (Fin (n + 1) → ℂ)))
    (hm : env.measure p sm t = .ok (joint, sm')) (h1 : ∀ rk ∈ joint, rk ≠ [])
    (h2 : ∀ s ∈ allSamples joint, 0 ≤ s.1) (h3 : r < List.length joint) :
    ∃ u at₁, (tdvpCall env cfg r netP t k sm at₀).call (nqsRun p₀ ops)
      = (.ok (u, at₁, sm'), nqsRun p₀ ops) := by
  cases hst : nqsRun p₀ ops with
  | none => exact absurd hst hinit
  | some st =>
    have hw := wf_run p₀ ops hops st hst
    obtain ⟨E, G, hi⟩ := tdvpInput_exists joint r h1 h2 h3
    obtain ⟨res, atS, hs⟩ := c45_returns_partial cfg hc hc' ht r joint E G hi at₀
    suffices hok : ∃ u at₁, ((tdvpCall env cfg r netP t k sm at₀).call (some st)).1
        = .ok (u, at₁, sm') by
      obtain ⟨u, at₁, hok⟩ := hok
      refine ⟨u, at₁, Prod.ext hok ?_⟩
      have := c44_restores env cfg r netP t k sm at₀ p₀ ops hops (u, at₁, sm') (by rw [hst]; exact hok)
      rw [hst] at this
      exact this
    have hp' : paramUnflatten p₀.isReal p₀.sizes (flattenParams st.params) = .ok st.params := by
      rw [← hw.2.2.1, ← hw.2.2.2, flattenParams_unflatten]
    unfold tdvpCall
    rw [bind_ok _ _ _ _ _ (call_getParameters st), call_bind, call_setVec, hw.1, hw.2.1, hp]
    dsimp only
    rw [bind_ok _ _ _ _ _ (call_getParams _)]
    dsimp only
    rw [call_bind, call_lift, hm]
    dsimp only
    rw [call_bind, call_lift, hi.data.1]
    dsimp only
    rw [call_bind, call_lift, hi.data.2]
    dsimp only
    rw [call_bind, call_lift, hs]
    dsimp only
    rw [call_bind, call_setVec]
    dsimp only
    rw [hp']
    dsimp only
    by_cases hk : k = some 0
    · rw [if_pos hk, call_bind, call_lift]
      obtain ⟨eq, e, sp, snr, heq, hsol⟩ := solve_attrs cfg r _ at₀ atS res hs
      rw [hsol at₀] at hs
      have hA := (congrArg Prod.snd (Except.ok.inj hs)).symm
      dsimp only at hA
      subst hA
      have herr : ∃ x, getTdvpError ⟨some e, some (eq.map Prod.fst), some sp, some snr,
          (some e).map fun e => e.map fun x => (x.elocMean, x.elocVar),
          at₀.metaData⟩ res.update = .ok x := by
        unfold getTdvpError
        dsimp only [Option.map_some]
        cases e with
        | none => exact ⟨_, rfl⟩
        | some e =>
          dsimp only [Option.map_some]
          cases res.update with
          | none => exact ⟨_, rfl⟩
          | some u =>
            dsimp only
            split <;> exact ⟨_, rfl⟩
      obtain ⟨x, hx⟩ := herr
      dsimp only
      rw [hx]
      dsimp only
      by_cases hcv : cfg.crossValidation = true
      · rw [if_pos hcv, call_bind, call_lift]
        obtain ⟨u, at₁, hcr⟩ := crossValidate_returns cfg hc hc' ht r joint E G hi
          ⟨x, res.residual, res.cutoff, (some snr).getD fun _ => .nan,
            ((some sp).getD none).map fun sp => sp.ev, none⟩
          ⟨some e, some (eq.map Prod.fst), some sp, some snr,
            (some e).map fun e => e.map fun x => (x.elocMean, x.elocVar),
            some ⟨x, res.residual, res.cutoff, (some snr).getD fun _ => .nan,
            ((some sp).getD none).map fun sp => sp.ev, none⟩⟩ (by simp)
        rw [hcr]
        exact ⟨_, _, rfl⟩
      · rw [if_neg hcv]
        exact ⟨_, _, rfl⟩
    · rw [if_neg hk]
      exact ⟨_, _, rfl⟩

/-- Case: cross validation, three samples on two ranks, a real network with two parameters. -/
example : ∃ u at₁, (tdvpCall (n := 1) ⟨fun _ (sm : ℕ) _ => .ok (demoJoint, sm + 1)⟩
    { demoCfg with crossValidation := true } 1 [3, 4] 0 (some 0) 7 {}).call
      (nqsRun (.real [[1, 2]]) [.eval])
      = (.ok (u, at₁, 8), nqsRun (.real [[1, 2]]) [.eval]) := by
  obtain ⟨E, G, hi⟩ := demo_input
  exact c44_returns _ _ (by norm_num [demoCfg]) (by norm_num [demoCfg]) (by norm_num [demoCfg]) 1 [3, 4] 0
    (some 0) 7 8 {} (.real [[1, 2]]) [.eval] (by intro op hop; simp at hop; subst hop; trivial)
    (by intro h; cases h) (.real [[3, 4]]) rfl demoJoint rfl hi.devices hi.weights hi.rank

/-- C46 for the metadata of a call: in the first step of an integration, the reported TDVP error is the
distance of the evolved states for the returned update, also with cross validation. -/
theorem c46_metadata {smp : Type} (env : TdvpEnv n smp) (cfg : TdvpCfg n)
    (hx : Complex.normSq cfg.rhsPrefactor = 1) (r : ℕ)
    (netP : List ℝ) (t : ℝ) (sm sm' : smp) (at₀ at₁ : TdvpAttrs n) (st : NqsInit) (st' : NqsState)
    (u : Fin (n + 1) → ℝ) (p : Params) (hp : paramUnflatten st.realParams st.sizes netP = .ok p)
    (joint : World (ℝ × (Fin 1 → ℂ) × (Fin (n + 1) → ℂ)))
    (hm : env.measure p sm t = .ok (joint, sm')) (h1 : ∀ rk ∈ joint, rk ≠ [])
    (h2 : ∀ s ∈ allSamples joint, 0 ≤ s.1) (h3 : r < List.length joint)
    (hvar : wVar ((allSamples joint).map fun s => (s.1, s.2.1)) 0 ≠ 0)
    (h : (tdvpCall env cfg r netP t (some 0) sm at₀).call (some st) = (.ok (some u, at₁, sm'), st')) :
    ∃ m, at₁.metaData = some m ∧ m.tdvpError = some (tdvpDistance (allSamples joint) cfg.rhsPrefactor u
      / wVar ((allSamples joint).map fun s => (s.1, s.2.1)) 0) := by
  obtain ⟨q, joint₂, E, G, res, atS, p', hq, hm₂, hd, hs, _, _, _, hz⟩ :=
    tdvpCall_ok env cfg r netP t (some 0) sm sm' at₀ at₁ st st' (some u) h
  rw [hp] at hq
  obtain rfl := Except.ok.inj hq
  rw [hm] at hm₂
  obtain ⟨rfl, -⟩ := Prod.mk.inj (Except.ok.inj hm₂)
  have hi : TdvpInput joint r E G := ⟨h1, h2, h3, hd⟩
  obtain ⟨err, he, hf, ht⟩ := hz rfl
  obtain ⟨eq, e, sp, snr, heq, hsol⟩ := solve_attrs _ r _ at₀ atS res hs
  rw [hsol at₀] at hs
  have hA := (congrArg Prod.snd (Except.ok.inj hs)).symm
  dsimp only at hA
  have hspec := heq at₀
  rw [getTdvpEquation_eq cfg r joint hi.devices hi.weights hi.rank E G hi.data at₀] at hspec
  have hee : e = some (specEqn cfg (allSamples joint)) := by
    have := congrArg TdvpAttrs.eqn (congrArg Prod.snd (Except.ok.inj hspec))
    exact (Option.some.inj this).symm
  have key : ∀ v, res.update = some v → err = some (tdvpDistance (allSamples joint) cfg.rhsPrefactor v
      / wVar ((allSamples joint).map fun s => (s.1, s.2.1)) 0) := by
    intro v hv
    have hget := heq { atS with eloc0 := atS.eqn.map fun e => e.map fun x => (x.elocMean, x.elocVar) }
    obtain ⟨d, hd1, _, hd2⟩ := c46_error cfg hx r joint E G hi _ _ _ hget hvar
      (wMean ((allSamples joint).map fun s => (s.1, s.2.1)) 0) (by
        rw [hA, hee]
        rfl) v
    rw [hA] at hd1 he
    rw [hv] at he
    rw [← hd2]
    exact Except.ok.inj (he.symm.trans hd1)
  by_cases hcv : cfg.crossValidation = true
  · obtain ⟨res', atS', cv, hs', hu, ha⟩ := crossValidate_ok _ r E G _ _ at₁ (some u) (ht hcv)
    have hs'' := hs'.symm.trans (hsol _)
    obtain ⟨hr, _⟩ := Prod.mk.inj (Except.ok.inj hs'')
    rw [hr] at hu
    rw [ha]
    exact ⟨_, rfl, key u hu.symm⟩
  · obtain ⟨hu, ha⟩ := hf (by simpa using hcv)
    rw [ha]
    exact ⟨_, rfl, key u hu.symm⟩

end JVMC
