import Verif.Props.ZeroMag
import Verif.Props.Variational

/-!
# C121 — TDVP steps with samples of a sector

If all samples are in a sector that the Hamiltonian keeps, a TDVP step is the step for the component of the wave function
in this sector (`partIn`, `Spec/ZeroMag`).
-/

namespace JVMC

open Spec Matrix

section
variable {C : Type} [Fintype C] [DecidableEq C] {kernel : C → List (C × ℂ)} {O : Matrix C C ℂ} {P : C → Prop}
  [DecidablePred P] {n : ℕ}

/-- A configuration of the sector. -/
def inSector (c₀ : Subtype P) (c : C) : Subtype P := if h : P c then ⟨c, h⟩ else c₀

/-- The operator within the sector. -/
def sectorKernel (kernel : C → List (C × ℂ)) (c : Subtype P) : List (Subtype P × ℂ) :=
  (kernel c.1).map fun e => if h : P e.1 then (⟨e.1, h⟩, e.2) else (c, 0)

/-- The samples as configurations of the sector. -/
def sectorWorld (c₀ : Subtype P) (w : World (C × ℂ × ℝ)) : World (Subtype P × ℂ × ℝ) :=
  World.map (fun x => (inSector c₀ x.1, x.2)) w

omit [Fintype C] [DecidableEq C] in
theorem inSector_val (c₀ : Subtype P) {c : C} (h : P c) : (inSector c₀ c).1 = c := by
  unfold inSector
  rw [dif_pos h]

omit [Fintype C] in
theorem elementOf_sector (l : List (C × ℂ)) (c c' : Subtype P) :
    elementOf (l.map fun e => if h : P e.1 then ((⟨e.1, h⟩ : Subtype P), e.2) else (c, 0)) c' = elementOf l c'.1 := by
  induction l with
  | nil => rfl
  | cons e l ih =>
    unfold elementOf at ih ⊢
    by_cases h : P e.1
    · by_cases he : e.1 = c'.1
      · have h1 : (⟨e.1, h⟩ : Subtype P) = c' := Subtype.ext he
        rw [List.map_cons, dif_pos h, h1, List.filter_cons_of_pos (by simp), List.filter_cons_of_pos (by simpa using he),
          List.map_cons, List.map_cons, List.sum_cons, List.sum_cons, ih]
      · have h1 : (⟨e.1, h⟩ : Subtype P) ≠ c' := fun hh => he (congrArg Subtype.val hh)
        simp [h, he, h1, ih]
    · have he : e.1 ≠ c'.1 := fun hh => h (hh ▸ c'.2)
      by_cases h1 : c = c'
      · simp [h, he, h1] at ih ⊢
        exact ih
      · simp [h, he, h1, ih]

theorem sector_operator (hk : OperatorOf kernel O) :
    OperatorOf (sectorKernel kernel) (O.submatrix (Subtype.val : Subtype P → C) Subtype.val) := by
  refine ⟨fun c c' => ?_, ?_, ?_⟩
  · unfold sectorKernel
    rw [elementOf_sector, hk.elements]
    rfl
  · obtain ⟨m, hm⟩ := hk.shape
    exact ⟨m, fun c => by simp [sectorKernel, hm]⟩
  · intro c e he
    obtain ⟨e', he', rfl⟩ := List.mem_map.mp he
    by_cases h : P e'.1
    · simpa [h] using hk.above c.1 e' he'
    · left
      simp [h]

omit [DecidableEq C] in
theorem partIn_mulVec (hO : KeepsSector P O) (ψ : C → ℂ) (c : Subtype P) :
    (O *ᵥ ψ) c.1 = (O.submatrix (Subtype.val : Subtype P → C) Subtype.val *ᵥ fun c : Subtype P => ψ c.1) c := by
  unfold mulVec dotProduct
  have h : ∑ c', O c.1 c' * ψ c' = ∑ c' ∈ Finset.univ.filter P, O c.1 c' * ψ c' := by
    rw [Finset.sum_filter]
    apply Finset.sum_congr rfl
    intro c' _
    by_cases h0 : O c.1 c' = 0
    · simp [h0]
    · rw [if_pos ((hO _ _ h0).mp c.2)]
  rw [h]
  exact (Finset.sum_subtype (Finset.univ.filter P) (by simp) fun c' => O c.1 c' * ψ c')

omit [DecidableEq C] in
theorem norm2_sector (ψ : C → ℂ) : norm2 (partIn P ψ) = norm2 fun c : Subtype P => ψ c.1 := by
  unfold norm2
  rw [← Finset.sum_subtype (Finset.univ.filter P) (by simp) fun c => Complex.normSq (ψ c), Finset.sum_filter]
  apply Finset.sum_congr rfl
  intro c _
  unfold partIn
  split_ifs <;> simp

omit [DecidableEq C] in
theorem expect_sector (hO : KeepsSector P O) (ψ : C → ℂ) : Spec.expect O (partIn P ψ)
    = Spec.expect (O.submatrix (Subtype.val : Subtype P → C) Subtype.val) fun c : Subtype P => ψ c.1 := by
  rw [← mixedExpect_keeps P hO]
  unfold mixedExpect Spec.expect
  rw [norm2_sector]
  congr 1
  rw [Finset.sum_congr rfl fun c _ => show (starRingEnd ℂ) (partIn P ψ c) * (O *ᵥ ψ) c
      = if P c then (starRingEnd ℂ) (ψ c) * (O *ᵥ ψ) c else 0 by unfold partIn; split_ifs <;> simp,
    ← Finset.sum_filter, Finset.sum_subtype (p := P) (Finset.univ.filter P) (by simp)]
  apply Finset.sum_congr rfl
  intro c _
  rw [partIn_mulVec hO]

/-- The situation of C79 and C80 in a sector: exactly weighted samples of the component of `exp(log ψ_θ)` in the sector
and a Hermitian Hamiltonian that keeps it. -/
structure SectorStep (P : C → Prop) (kernel : C → List (C × ℂ)) (O : Matrix C C ℂ)
    (logPsi : (Fin (n + 1) → ℝ) → C → ℂ) (θ : Fin (n + 1) → ℝ) (grads : C → Fin (n + 1) → ℂ)
    (w : World (C × ℂ × ℝ)) : Prop where
  operator : OperatorOf kernel O
  keeps : KeepsSector P O
  hermitian : O.IsHermitian
  differentiable : ∀ s, P s → DifferentiableAt ℝ (fun p => logPsi p s) θ
  gradients : ∀ s, P s → ∀ k, grads s k = fderiv ℝ (fun p => logPsi p s) θ (Pi.single k 1)
  samples : SamplesOf (logPsi θ) w
  inside : ∀ x ∈ allSamples w, P x.1
  weights : BornWeights (partIn P fun c => Complex.exp (logPsi θ c)) (weighted w)

omit [Fintype C] [DecidableEq C] in
theorem sector_samples {logPsi : C → ℂ} (c₀ : Subtype P) {w : World (C × ℂ × ℝ)} (hw : SamplesOf logPsi w)
    (hin : ∀ x ∈ allSamples w, P x.1) : SamplesOf (fun c : Subtype P => logPsi c.1) (sectorWorld c₀ w) := by
  refine ⟨World.map_ne _ _ hw.devices, ?_, ?_⟩
  · intro rk hrk dev hdev
    obtain ⟨rk', h1, rfl⟩ := List.mem_map.mp hrk
    obtain ⟨dev', h2, rfl⟩ := List.mem_map.mp hdev
    have := hw.nonempty rk' h1 dev' h2
    simpa using this
  · intro x hx
    unfold sectorWorld at hx
    rw [allSamples_wmap] at hx
    obtain ⟨y, hy, rfl⟩ := List.mem_map.mp hx
    dsimp only
    rw [hw.amplitudes y hy, inSector_val c₀ (hin y hy)]

theorem sector_weights {ψ : C → ℂ} (c₀ : Subtype P) {w : World (C × ℂ × ℝ)} (hin : ∀ x ∈ allSamples w, P x.1)
    (hb : BornWeights (partIn P ψ) (weighted w)) :
    BornWeights (fun c : Subtype P => ψ c.1) (weighted (sectorWorld c₀ w)) := by
  have hwt : weighted (sectorWorld c₀ w) = (weighted w).map fun x => (x.1, inSector c₀ x.2) := by
    unfold weighted sectorWorld
    rw [allSamples_wmap, List.map_map, List.map_map]
    rfl
  have hin' : ∀ x ∈ weighted w, P x.2 := by
    intro x hx
    obtain ⟨y, hy, rfl⟩ := List.mem_map.mp hx
    exact hin y hy
  refine ⟨?_, fun c => ?_⟩
  · intro x hx
    rw [hwt] at hx
    obtain ⟨y, hy, rfl⟩ := List.mem_map.mp hx
    exact hb.nonneg y hy
  · have h1 : weightOf (weighted (sectorWorld c₀ w)) c = weightOf (weighted w) c.1 := by
      rw [hwt]
      unfold weightOf
      rw [List.filter_map, List.map_map]
      have : (weighted w).filter ((fun x : ℝ × Subtype P => decide (x.2 = c)) ∘ fun x => (x.1, inSector c₀ x.2))
          = (weighted w).filter fun x => decide (x.2 = c.1) := by
        apply List.filter_congr
        intro x hx
        simp only [Function.comp]
        congr 1
        rw [Subtype.ext_iff, inSector_val c₀ (hin' x hx)]
      rw [this]
      rfl
    rw [h1, hb.born, norm2_sector]
    congr 1
    simp [partIn, c.2]

/-- The same call, within the sector. -/
theorem solveSamples_sector (hk : OperatorOf kernel O) (hO : KeepsSector P O) (psi : C → ℂ) (zeroCfg : C) (b : ℤ)
    (w : World (C × ℂ × ℝ)) (hw : SamplesOf psi w) (hin : ∀ x ∈ allSamples w, P x.1) (cfg : TdvpCfg n) (r : ℕ)
    (grads : C → Fin (n + 1) → ℂ) (c₀ : Subtype P) (at₀ : TdvpAttrs n) :
    tdvpSolveSamples cfg r kernel ⟨psi, true⟩ zeroCfg b grads w at₀
      = tdvpSolveSamples cfg r (sectorKernel kernel) ⟨fun c : Subtype P => psi c.1, true⟩ c₀ b (fun c => grads c.1)
          (sectorWorld c₀ w) at₀ := by
  have congr_world : ∀ {B : Type} (f g : C × ℂ × ℝ → B), (∀ x ∈ allSamples w, f x = g x) → World.map f w = World.map g w := by
    intro B f g h
    unfold World.map
    apply List.map_congr_left
    intro rk hrk
    apply List.map_congr_left
    intro dev hdev
    apply List.map_congr_left
    intro x hx
    exact h x (List.mem_flatten.mpr ⟨dev, List.mem_flatten.mpr ⟨rk, hrk, hdev⟩, hx⟩)
  unfold tdvpSolveSamples
  rw [oLocWorld_eq hk ⟨psi, true⟩ rfl zeroCfg b w hw,
    oLocWorld_eq (sector_operator hk) ⟨fun c : Subtype P => psi c.1, true⟩ rfl c₀ b _ (sector_samples c₀ hw hin)]
  unfold sectorWorld
  rw [World.map_map, World.map_map]
  have e1 : World.map (fun x : C × ℂ × ℝ => (x.2.2, fun _ : Fin 1 => localValue O (fun c => Complex.exp (psi c)) x.1)) w
      = World.map (fun x => (x.2.2, fun _ => localValue (O.submatrix (Subtype.val : Subtype P → C) Subtype.val)
        (fun c => Complex.exp (psi c.1)) (inSector c₀ x.1))) w := by
    apply congr_world
    intro x hx
    refine Prod.ext rfl (funext fun _ => ?_)
    dsimp only
    unfold localValue
    rw [← partIn_mulVec hO (fun c => Complex.exp (psi c))]
    dsimp only
    rw [inSector_val c₀ (hin x hx)]
  have e2 : World.map (fun x : C × ℂ × ℝ => (x.2.2, grads x.1)) w
      = World.map (fun x => (x.2.2, grads (inSector c₀ x.1).1)) w := by
    apply congr_world
    intro x hx
    rw [inSector_val c₀ (hin x hx)]
  dsimp only
  rw [e1, e2]

variable {logPsi : (Fin (n + 1) → ℝ) → C → ℂ} {θ : Fin (n + 1) → ℝ} {grads : C → Fin (n + 1) → ℂ} {w : World (C × ℂ × ℝ)}

theorem SectorStep.step (hst : SectorStep P kernel O logPsi θ grads w) (c₀ : Subtype P) :
    TdvpStep (sectorKernel kernel) (O.submatrix (Subtype.val : Subtype P → C) Subtype.val) (fun p c => logPsi p c.1) θ
      (fun c => grads c.1) (sectorWorld c₀ w) :=
  ⟨sector_operator hst.operator, hst.hermitian.submatrix _, fun s => hst.differentiable s.1 s.2,
    fun s k => hst.gradients s.1 s.2 k, sector_samples c₀ hst.samples hst.inside,
    sector_weights c₀ hst.inside hst.weights⟩

omit [DecidablePred P] in
theorem SectorStep.nonempty (hst : SectorStep P kernel O logPsi θ grads w) {r : ℕ} (hr : r < List.length w) :
    Nonempty (Subtype P) := by
  obtain ⟨dev, hdev⟩ := List.exists_mem_of_ne_nil _ (hst.samples.devices _ (List.getElem_mem hr))
  obtain ⟨x, hx⟩ := List.exists_mem_of_ne_nil _ (hst.samples.nonempty _ (List.getElem_mem hr) dev hdev)
  exact ⟨x.1, hst.inside x (List.mem_flatten.mpr ⟨dev, List.mem_flatten.mpr ⟨_, List.getElem_mem hr, hdev⟩, hx⟩)⟩

omit [DecidablePred P] in
/-- C121: ground state search in a sector. With exactly weighted samples of the component of the wave function in the
sector, a Hamiltonian that keeps the sector and a positive prefactor, the energy of this component does not grow in the
direction of the update, and it falls unless the update is zero. -/
theorem c121_energy_decreases (hst : SectorStep P kernel O logPsi θ grads w) (cfg : TdvpCfg n) (heigh : EighCorrect cfg)
    (hq : cfg.makeReal ≠ "imag") (x : ℝ) (hx : 0 < x) (hpre : cfg.rhsPrefactor = (x : ℂ))
    (hshift : 0 ≤ cfg.diagonalShift) (zeroCfg : C) (b : ℤ) (r : ℕ) (hr : r < List.length w)
    (at₀ at₁ : TdvpAttrs n) (res : SolveRes n)
    (hres : tdvpSolveSamples cfg r kernel ⟨logPsi θ, true⟩ zeroCfg b grads w at₀ = .ok (res, at₁))
    (u : Fin (n + 1) → ℝ) (hu : res.update = some u) :
    ∃ e : ℝ, HasDerivAt (fun τ : ℝ => Spec.expect O (partIn P fun c => Complex.exp (logPsi (θ + τ • u) c))) (e : ℂ) 0 ∧
      e ≤ 0 ∧ (u ≠ 0 → e < 0) := by
  classical
  obtain ⟨c₀⟩ := hst.nonempty hr
  have : Nonempty (Subtype P) := ⟨c₀⟩
  rw [solveSamples_sector hst.operator hst.keeps (logPsi θ) zeroCfg b w hst.samples hst.inside cfg r grads c₀] at hres
  have h := c79_energy_decreases (fun p (c : Subtype P) => logPsi p c.1) θ (fun c => grads c.1) (sectorWorld c₀ w)
    (hst.step c₀) cfg heigh hq x hx hpre hshift c₀ b r (by simpa [sectorWorld, World.map] using hr) at₀ at₁ res hres u hu
  simpa only [expect_sector hst.keeps] using h

omit [DecidablePred P] in
/-- C121: real time evolution in a sector. With exactly weighted samples of the component of the wave function in the
sector, a Hamiltonian that keeps the sector, an imaginary prefactor and `makeReal="imag"`, the derivative of the energy of
this component in the direction of the update is zero. -/
theorem c121_energy_conserved (hst : SectorStep P kernel O logPsi θ grads w) (cfg : TdvpCfg n)
    (hq : cfg.makeReal = "imag") (y : ℝ) (hy : y ≠ 0) (hpre : cfg.rhsPrefactor = Complex.I * (y : ℂ))
    (zeroCfg : C) (b : ℤ) (r : ℕ) (hr : r < List.length w)
    (at₀ at₁ : TdvpAttrs n) (res : SolveRes n)
    (hres : tdvpSolveSamples cfg r kernel ⟨logPsi θ, true⟩ zeroCfg b grads w at₀ = .ok (res, at₁))
    (u : Fin (n + 1) → ℝ) (hu : res.update = some u) :
    HasDerivAt (fun τ : ℝ => Spec.expect O (partIn P fun c => Complex.exp (logPsi (θ + τ • u) c))) 0 0 := by
  classical
  obtain ⟨c₀⟩ := hst.nonempty hr
  have : Nonempty (Subtype P) := ⟨c₀⟩
  rw [solveSamples_sector hst.operator hst.keeps (logPsi θ) zeroCfg b w hst.samples hst.inside cfg r grads c₀] at hres
  have h := c80_energy_conserved (fun p (c : Subtype P) => logPsi p c.1) θ (fun c => grads c.1) (sectorWorld c₀ w)
    (hst.step c₀) cfg hq y hy hpre c₀ b r (by simpa [sectorWorld, World.map] using hr) at₀ at₁ res hres u hu
  simpa only [expect_sector hst.keeps] using h

end

/-- Non-vacuity: the exchange of two spins, with `log ψ_θ(s) = θ s_0`, at `θ = 0` on two ranks. -/
example : SectorStep (n := 0) UpAsDown (fun c : Fin 2 → Fin 2 => [(c ∘ Equiv.swap 0 1, (1 : ℂ))])
    (Matrix.of fun c c' => if c ∘ Equiv.swap 0 1 = c' then 1 else 0)
    (fun θ c => ((θ 0 * (c 0 : ℕ) : ℝ) : ℂ)) 0 (fun c _ => ((c 0 : ℕ) : ℂ))
    [[[(![0, 1], 0, 1 / 2)]], [[(![1, 0], 0, 1 / 2)]]] where
  operator := ⟨fun s s' => by
      by_cases h : s ∘ Equiv.swap 0 1 = s' <;> simp [elementOf, h], ⟨1, fun _ => rfl⟩, fun s e he => by
      rw [List.mem_singleton.mp he]; norm_num⟩
  keeps := fun c c' h => by
    have : c ∘ Equiv.swap 0 1 = c' := by
      by_contra h'
      exact h (by simp [h'])
    rw [← this, upAsDown_perm]
  hermitian := by
    have key : ∀ c c' : Fin 2 → Fin 2, c ∘ Equiv.swap 0 1 = c' ↔ c' ∘ Equiv.swap 0 1 = c := by decide
    ext c c'
    rw [conjTranspose_apply, Matrix.of_apply, Matrix.of_apply]
    by_cases h : c ∘ Equiv.swap 0 1 = c'
    · rw [if_pos h, if_pos ((key _ _).mp h)]
      simp
    · rw [if_neg h, if_neg fun h' => h ((key _ _).mpr h')]
      simp
  differentiable := fun s _ => by
    apply DifferentiableAt.comp (g := fun x : ℝ => (x : ℂ))
    · exact Complex.ofRealCLM.differentiableAt
    · exact (differentiableAt_apply 0 _).mul_const _
  gradients := fun s _ k => by
    have h : HasFDerivAt (fun θ : Fin 1 → ℝ => ((θ 0 * (s 0 : ℕ) : ℝ) : ℂ))
        (Complex.ofRealCLM.comp (((s 0 : ℕ) : ℝ) • (ContinuousLinearMap.proj 0 : (Fin 1 → ℝ) →L[ℝ] ℝ))) 0 := by
      apply Complex.ofRealCLM.hasFDerivAt.comp
      exact (hasFDerivAt_apply 0 _).mul_const _
    rw [h.fderiv]
    simp [Fin.fin_one_eq_zero k]
  samples := ⟨by simp, by simp, by simp [allSamples]⟩
  inside := by
    intro x hx
    simp only [allSamples, List.flatten_cons, List.flatten_nil, List.append_nil, List.cons_append, List.nil_append,
      List.mem_cons, List.not_mem_nil, or_false] at hx
    rcases hx with rfl | rfl <;> (unfold UpAsDown; decide)
  weights := by
    refine ⟨by simp [weighted, allSamples], fun s => ?_⟩
    have hdec : ∀ s : Fin 2 → Fin 2, s = ![0, 0] ∨ s = ![0, 1] ∨ s = ![1, 0] ∨ s = ![1, 1] := by decide
    have h00 : ¬ UpAsDown ![(0 : Fin 2), 0] := by unfold UpAsDown; decide
    have h11 : ¬ UpAsDown ![(1 : Fin 2), 1] := by unfold UpAsDown; decide
    have h01 : UpAsDown ![(0 : Fin 2), 1] := by unfold UpAsDown; decide
    have h10 : UpAsDown ![(1 : Fin 2), 0] := by unfold UpAsDown; decide
    have hu : (Finset.univ : Finset (Fin 2 → Fin 2)) = {![0, 0], ![0, 1], ![1, 0], ![1, 1]} := by decide
    have hn : norm2 (partIn UpAsDown fun c : Fin 2 → Fin 2 =>
        Complex.exp ((((0 : Fin 1 → ℝ) 0 * (c 0 : ℕ) : ℝ) : ℂ))) = 2 := by
      unfold norm2
      rw [hu, Finset.sum_insert (by decide), Finset.sum_insert (by decide), Finset.sum_insert (by decide),
        Finset.sum_singleton]
      simp [partIn, h00, h01, h10, h11]
      norm_num
    rw [hn]
    rcases hdec s with rfl | rfl | rfl | rfl <;> simp [weightOf, weighted, allSamples, partIn, h00, h01, h10, h11]

end JVMC
