import Verif.Lemmas.HoloTdvp
import Verif.Props.TdvpOptimal
import Verif.Spec.Holo

/-!
# C89 — for holomorphic networks `makeReal` does not matter
-/

namespace JVMC

open Spec Matrix

variable {n : ℕ}

/-- The sign of the factor `± i`. -/
def holoSign {m : ℕ} (isRe : Fin m → Bool) (k : Fin m) : ℝ := if isRe k then 1 else -1

theorem holo_partner {m : ℕ} {partner : Fin m → Fin m} {isRe : Fin m → Bool}
    (hp : IsPairing partner isRe) {O : Fin m → ℂ} (hO : HoloGrad partner isRe O) (k : Fin m) :
    O (partner k) = (holoSign isRe k : ℂ) * Complex.I * O k := by
  unfold holoSign
  cases hk : isRe k with
  | true => rw [hO k hk]; simp
  | false =>
    have h := hO (partner k) (by rw [hp.flip, hk]; rfl)
    rw [hp.invol] at h
    rw [h]
    simp only [Bool.false_eq_true, if_false]
    push_cast
    linear_combination O (partner k) * Complex.I_mul_I

theorem holoSign_partner {m : ℕ} {partner : Fin m → Fin m} {isRe : Fin m → Bool}
    (hp : IsPairing partner isRe) (k : Fin m) : holoSign isRe (partner k) = -holoSign isRe k := by
  unfold holoSign
  rw [hp.flip]
  cases isRe k <;> simp

theorem holoSign_sq {m : ℕ} (isRe : Fin m → Bool) (k : Fin m) :
    holoSign isRe k * holoSign isRe k = 1 := by
  unfold holoSign
  split <;> norm_num

/-- Sums over samples inherit the relation. -/
theorem wMean_partner {partner : Fin (n + 1) → Fin (n + 1)} {isRe : Fin (n + 1) → Bool}
    (hp : IsPairing partner isRe) (l : List (ℝ × (Fin 1 → ℂ) × (Fin (n + 1) → ℂ)))
    (hl : ∀ s ∈ l, HoloGrad partner isRe s.2.2) (k : Fin (n + 1)) :
    wMean (l.map fun s => (s.1, s.2.2)) (partner k)
      = (holoSign isRe k : ℂ) * Complex.I * wMean (l.map fun s => (s.1, s.2.2)) k := by
  simp only [wMean_apply, List.map_map]
  rw [← List.sum_map_mul_left]
  congr 1
  apply List.map_congr_left
  intro s hs
  simp only [Function.comp_apply]
  rw [holo_partner hp (hl s hs)]
  ring

theorem cov_partner {partner : Fin (n + 1) → Fin (n + 1)} {isRe : Fin (n + 1) → Bool}
    (hp : IsPairing partner isRe) (l : List (ℝ × (Fin 1 → ℂ) × (Fin (n + 1) → ℂ)))
    (hl : ∀ s ∈ l, HoloGrad partner isRe s.2.2) (i j : Fin (n + 1)) :
    specF l (partner i) = -((holoSign isRe i : ℂ) * Complex.I) * specF l i ∧
    specS l (partner i) j = -((holoSign isRe i : ℂ) * Complex.I) * specS l i j ∧
    specS l i (partner j) = (holoSign isRe j : ℂ) * Complex.I * specS l i j := by
  have hm := wMean_partner hp l hl
  have hF : ∀ i, specF l i = (l.map fun s => (s.1 : ℂ) * ((starRingEnd ℂ) (s.2.2 i
      - wMean (l.map fun s => (s.1, s.2.2)) i) * (s.2.1 0 - wMean (l.map fun s => (s.1, s.2.1)) 0))).sum := by
    intro i
    unfold specF wCross
    simp only [List.map_map, Function.comp_def]
  have hS : ∀ i j, specS l i j = (l.map fun s => (s.1 : ℂ) * ((starRingEnd ℂ) (s.2.2 i
      - wMean (l.map fun s => (s.1, s.2.2)) i) * (s.2.2 j - wMean (l.map fun s => (s.1, s.2.2)) j))).sum := by
    intro i j
    unfold specS wCross
    simp only [Matrix.of_apply, List.map_map, Function.comp_def]
  refine ⟨?_, ?_, ?_⟩
  · rw [hF, hF, ← List.sum_map_mul_left]
    congr 1
    apply List.map_congr_left
    intro s hs
    rw [holo_partner hp (hl s hs), hm, ← mul_sub, map_mul, map_mul, Complex.conj_ofReal, Complex.conj_I]
    ring
  · rw [hS, hS, ← List.sum_map_mul_left]
    congr 1
    apply List.map_congr_left
    intro s hs
    rw [holo_partner hp (hl s hs), hm, ← mul_sub, map_mul, map_mul, Complex.conj_ofReal, Complex.conj_I]
    ring
  · rw [hS, hS, ← List.sum_map_mul_left]
    congr 1
    apply List.map_congr_left
    intro s hs
    rw [holo_partner hp (hl s hs), hm, ← mul_sub]
    ring

/-- The reflection that relates the two forms of the equation. -/
noncomputable def holoReflection {m : ℕ} (partner : Fin m → Fin m) (isRe : Fin m → Bool) :
    Matrix (Fin m) (Fin m) ℂ :=
  Matrix.of fun i l => if l = partner i then Complex.I * (holoSign isRe i : ℂ) else 0

theorem holo_twin (cfg₁ cfg₂ : TdvpCfg n) (h₁ : cfg₁.makeReal ≠ "imag") (h₂ : cfg₂.makeReal = "imag")
    (hs₁ : cfg₁.diagonalShift ≤ 1e-10) (hs₂ : cfg₂.diagonalShift ≤ 1e-10)
    (hx : cfg₁.rhsPrefactor = cfg₂.rhsPrefactor) {partner : Fin (n + 1) → Fin (n + 1)}
    {isRe : Fin (n + 1) → Bool} (hp : IsPairing partner isRe)
    (l : List (ℝ × (Fin 1 → ℂ) × (Fin (n + 1) → ℂ))) (hl : ∀ s ∈ l, HoloGrad partner isRe s.2.2) :
    Twin (holoReflection partner isRe) (specQS cfg₁ l) (specQS cfg₂ l) (specQF cfg₁ l)
      (specQF cfg₂ l) := by
  have q1 : ∀ z, cfg₁.q z = (z.re : ℂ) := fun z => by unfold TdvpCfg.q; rw [if_neg h₁]
  have q2 : ∀ z, cfg₂.q z = Complex.I * (z.im : ℂ) := fun z => by
    unfold TdvpCfg.q
    rw [if_pos h₂, Complex.sub_conj]
    push_cast
    ring
  have hK : ∀ (i : Fin (n + 1)) (f : Fin (n + 1) → ℂ),
      ∑ l, holoReflection partner isRe i l * f l = Complex.I * (holoSign isRe i : ℂ) * f (partner i) := by
    intro i f
    rw [Finset.sum_eq_single (partner i)]
    · simp [holoReflection]
    · intro b _ hb
      simp [holoReflection, hb]
    · simp
  have hK' : ∀ (j : Fin (n + 1)) (f : Fin (n + 1) → ℂ),
      ∑ l, f l * holoReflection partner isRe l j = -(Complex.I * (holoSign isRe j : ℂ)) * f (partner j) := by
    intro j f
    rw [Finset.sum_eq_single (partner j)]
    · simp only [holoReflection, Matrix.of_apply, hp.invol, if_true, holoSign_partner hp]
      push_cast
      ring
    · intro b _ hb
      have : j ≠ partner b := by
        intro h
        apply hb
        rw [h, hp.invol]
      simp [holoReflection, this]
    · simp
  have hsq := fun k => holoSign_sq isRe k
  have hσ : ∀ k, holoSign isRe k = 1 ∨ holoSign isRe k = -1 := by
    intro k
    unfold holoSign
    split
    · exact Or.inl rfl
    · exact Or.inr rfl
  refine ⟨?_, ?_, ?_, ?_, ?_⟩
  · ext i j
    rw [Matrix.mul_apply, hK i, Matrix.one_apply]
    simp only [holoReflection, Matrix.of_apply, hp.invol, holoSign_partner hp]
    by_cases hij : i = j
    · rw [if_pos hij, if_pos hij.symm]
      push_cast
      have : (holoSign isRe i : ℂ) * (holoSign isRe i : ℂ) = 1 := by exact_mod_cast hsq i
      linear_combination -(holoSign isRe i : ℂ) * (holoSign isRe i : ℂ) * Complex.I_mul_I + this
    · rw [if_neg hij, if_neg (Ne.symm hij), mul_zero]
  · ext i j
    rw [Matrix.conjTranspose_apply]
    simp only [holoReflection, Matrix.of_apply]
    by_cases hij : j = partner i
    · have : i = partner j := by rw [hij, hp.invol]
      rw [if_pos hij, if_pos this, hij, holoSign_partner hp]
      simp
    · have : i ≠ partner j := by
        intro h
        apply hij
        rw [h, hp.invol]
      rw [if_neg hij, if_neg this, star_zero]
  · ext i j
    rw [Matrix.mul_apply, hK i]
    unfold specQS
    rw [if_neg (not_lt.mpr hs₁), if_neg (not_lt.mpr hs₂)]
    simp only [Matrix.of_apply, q1, q2, (cov_partner hp l hl i j).2.1]
    rcases hσ i with h | h <;> rw [h] <;> simp
  · ext i j
    rw [Matrix.mul_apply, hK' j]
    unfold specQS
    rw [if_neg (not_lt.mpr hs₁), if_neg (not_lt.mpr hs₂)]
    simp only [Matrix.of_apply, q1, q2, (cov_partner hp l hl i j).2.2]
    rcases hσ j with h | h <;> rw [h] <;> simp
  · funext i
    rw [Matrix.mulVec, dotProduct, hK i]
    unfold specQF
    rw [q1, q2, (cov_partner hp l hl i i).1, hx]
    rcases hσ i with h | h <;> rw [h] <;> simp <;> ring

/-- C89: for a holomorphic network, sampled exactly, without diagonal shift, `solve` does the same
with `makeReal="imag"` as with `makeReal="real"`: it returns for one if it returns for the other, and
update, residual and cutoff are equal. -/
theorem c89_makeReal (cfg : TdvpCfg n) (heigh : EighCorrect cfg) (hs : cfg.diagonalShift ≤ 1e-10)
    (hex : cfg.isExact = true) (r : ℕ) (joint : World (ℝ × (Fin 1 → ℂ) × (Fin (n + 1) → ℂ)))
    (E : SObs (Fin 1)) (G : SObs (Fin (n + 1))) (hi : TdvpInput joint r E G)
    (partner : Fin (n + 1) → Fin (n + 1)) (isRe : Fin (n + 1) → Bool) (hp : IsPairing partner isRe)
    (hl : ∀ s ∈ allSamples joint, HoloGrad partner isRe s.2.2) (at₀ : TdvpAttrs n) :
    (tdvpSolve { cfg with makeReal := "imag" } r (some (E, G)) at₀).map Prod.fst
      = (tdvpSolve { cfg with makeReal := "real" } r (some (E, G)) at₀).map Prod.fst := by
  set cfg₁ : TdvpCfg n := { cfg with makeReal := "real" } with hc₁
  set cfg₂ : TdvpCfg n := { cfg with makeReal := "imag" } with hc₂
  have htw := holo_twin cfg₁ cfg₂ (by simp [hc₁]) (by simp [hc₂]) hs hs rfl hp (allSamples joint) hl
  set l := allSamples joint with hlj
  have e₁ : IsEigh (specQS cfg₁ l) (cfg₁.eigh (specQS cfg₁ l)).1 (cfg₁.eigh (specQS cfg₁ l)).2 :=
    heigh _ (specQS_hermitian cfg₁ l)
  have e₂ : IsEigh (specQS cfg₂ l) (cfg₂.eigh (specQS cfg₂ l)).1 (cfg₂.eigh (specQS cfg₂ l)).2 :=
    heigh _ (specQS_hermitian cfg₂ l)
  have hnn : ∀ k, 0 ≤ (cfg₁.eigh (specQS cfg₁ l)).1 k := by
    -- without shift the matrix is positive
    intro k
    set cfg₀ : TdvpCfg n := { cfg₁ with diagonalShift := 0 } with hc₀
    have hS : specQS cfg₁ l = specQS cfg₀ l := by
      unfold specQS
      rw [if_neg (not_lt.mpr hs), if_neg (by norm_num [hc₀])]
      rfl
    rw [hS] at e₁ ⊢
    exact eigenvalue_nonneg _ _ _ e₁
      (specQS_quad_nonneg cfg₀ (by simp [hc₀, hc₁]) le_rfl l hi.weights) k
  have hmax : |(cfg₁.eigh (specQS cfg₁ l)).1 (Fin.last n)|
      = |(cfg₂.eigh (specQS cfg₂ l)).1 (Fin.last n)| := by
    have htop₁ : ∀ k, |(cfg₁.eigh (specQS cfg₁ l)).1 k| ≤ |(cfg₁.eigh (specQS cfg₁ l)).1 (Fin.last n)| := by
      intro k
      rw [abs_of_nonneg (hnn k), abs_of_nonneg (hnn _)]
      exact e₁.sorted (Fin.le_last k)
    have htop₂ : ∀ k, |(cfg₂.eigh (specQS cfg₂ l)).1 k| ≤ |(cfg₂.eigh (specQS cfg₂ l)).1 (Fin.last n)| := by
      intro k
      obtain ⟨j, hj⟩ := imaginary_spectrum _ _ _ e₂ (by
        intro i j
        unfold specQS
        rw [if_neg (not_lt.mpr (show cfg₂.diagonalShift ≤ 1e-10 from hs))]
        simp only [Matrix.of_apply]
        have := q_conj cfg₂ (specS l i j)
        rw [this]
        simp [TdvpCfg.sign, hc₂]) k
      have a1 := e₂.sorted (Fin.le_last k)
      have a2 := e₂.sorted (Fin.le_last j)
      rw [hj] at a2
      refine le_trans ?_ (le_abs_self _)
      rw [abs_le]
      exact ⟨by linarith, a1⟩
    apply le_antisymm
    · obtain ⟨j, hj⟩ := sq_occurs _ _ _ _ _ _ e₁.unitary e₁.decomp e₂.unitary e₂.decomp htw.sq (Fin.last n)
      rw [sq_eq_sq_iff_abs_eq_abs] at hj
      rw [hj]
      exact htop₂ j
    · obtain ⟨j, hj⟩ := sq_occurs _ _ _ _ _ _ e₂.unitary e₂.decomp e₁.unitary e₁.decomp htw.sq.symm
        (Fin.last n)
      rw [sq_eq_sq_iff_abs_eq_abs] at hj
      rw [hj]
      exact htop₁ j
  obtain ⟨snr₁, _, q₁⟩ := tdvpSolve_eq cfg₁ r joint hi.devices hi.weights hi.rank E G hi.data
  obtain ⟨snr₂, _, q₂⟩ := tdvpSolve_eq cfg₂ r joint hi.devices hi.weights hi.rank E G hi.data
  rw [q₁, q₂, ← hlj]
  have hloop := whileLoop_rel (LoopTwin (tdvpEigenbasis cfg₁ (specQS cfg₁ l) (specQF cfg₁ l))
      (tdvpEigenbasis cfg₂ (specQS cfg₂ l) (specQF cfg₂ l)))
    (pinvCond cfg₁) (pinvCond cfg₂)
    (pinvBody cfg₁ (tdvpEigenbasis cfg₁ (specQS cfg₁ l) (specQF cfg₁ l)) snr₁ (specQF cfg₁ l))
    (pinvBody cfg₂ (tdvpEigenbasis cfg₂ (specQS cfg₂ l) (specQF cfg₂ l)) snr₂ (specQF cfg₂ l))
    ⟨some 1, 1e-2, none⟩ ⟨some 1, 1e-2, none⟩ ⟨rfl, rfl, by norm_num, rfl⟩
    (fun x y h => body_twin cfg₁ cfg₂ hex hex rfl _ _ _ _ _ htw e₁ e₂ hmax snr₁ snr₂ x y h.2.1 h.2.2.1)
    (fun x y h => by
      unfold pinvCond
      rw [h.1, h.2.1])
  rcases hloop with ⟨n1, n2⟩ | ⟨x, y, s1, s2, hx, hc, _, hu⟩
  · unfold pinvLoop
    rw [n1, n2]
  · unfold pinvLoop
    rw [s1, s2]
    dsimp only
    unfold tdvpUpdate
    cases hpx : x.pinvEv with
    | none =>
      rw [hpx] at hu
      cases hpy : y.pinvEv with
      | none => rfl
      | some q => rw [hpy] at hu; cases hu
    | some p =>
      rw [hpx] at hu
      cases hpy : y.pinvEv with
      | none => rw [hpy] at hu; cases hu
      | some q =>
        rw [hpy] at hu
        have hu := Option.some.inj hu
        dsimp only
        change Except.ok (SolveRes.mk _ _ _) = Except.ok (SolveRes.mk _ _ _)
        rw [hx, hc]
        congr 2
        exact hu.symm

/-! ## From the network to the update -/

section Net

variable {C : Type} [Fintype C] [DecidableEq C] {kernel : C → List (C × ℂ)} {O : Matrix C C ℂ}

/-- C89 for samples: local energies and gradients computed from exact samples. -/
theorem c89_samples (hk : OperatorOf kernel O) (psi : Net C) (hlog : psi.logarithmic = true)
    (zeroCfg : C) (b : ℤ) (w : World (C × ℂ × ℝ)) (hw : SamplesOf psi.val w)
    (hpos : ∀ x ∈ allSamples w, 0 ≤ x.2.2) (cfg : TdvpCfg n) (heigh : EighCorrect cfg)
    (hs : cfg.diagonalShift ≤ 1e-10) (hex : cfg.isExact = true) (r : ℕ) (hr : r < List.length w)
    (grads : C → Fin (n + 1) → ℂ) (partner : Fin (n + 1) → Fin (n + 1)) (isRe : Fin (n + 1) → Bool)
    (hp : IsPairing partner isRe) (hl : ∀ s, HoloGrad partner isRe (grads s)) (at₀ : TdvpAttrs n) :
    (tdvpSolveSamples { cfg with makeReal := "imag" } r kernel psi zeroCfg b grads w at₀).map Prod.fst
      = (tdvpSolveSamples { cfg with makeReal := "real" } r kernel psi zeroCfg b grads w at₀).map
          Prod.fst := by
  obtain ⟨E, G, hi, h2⟩ := solveSamples_input hk psi hlog zeroCfg b w hw hpos
    { cfg with makeReal := "imag" } r hr grads
  obtain ⟨E', G', hi', h1⟩ := solveSamples_input hk psi hlog zeroCfg b w hw hpos
    { cfg with makeReal := "real" } r hr grads
  have hE : E = E' := Except.ok.inj (hi.data.1.symm.trans hi'.data.1)
  have hG : G = G' := Except.ok.inj (hi.data.2.symm.trans hi'.data.2)
  subst hE hG
  rw [h1, h2]
  refine c89_makeReal cfg heigh hs hex r _ E G hi partner isRe hp ?_ at₀
  intro s hs
  unfold tdvpJoint at hs
  rw [allSamples_wmap] at hs
  obtain ⟨x, _, rfl⟩ := List.mem_map.mp hs
  exact hl x.1

/-- C89: with a positive real prefactor (imaginary time), the energy of a holomorphic network decreases
along the update although `makeReal="imag"` is chosen. -/
theorem c89_energy_decreases [Nonempty C] (logPsi : (Fin (n + 1) → ℝ) → C → ℂ)
    (θ : Fin (n + 1) → ℝ) (grads : C → Fin (n + 1) → ℂ) (w : World (C × ℂ × ℝ))
    (hst : TdvpStep kernel O logPsi θ grads w) (partner : Fin (n + 1) → Fin (n + 1))
    (isRe : Fin (n + 1) → Bool) (hp : IsPairing partner isRe)
    (hl : ∀ s, HoloGrad partner isRe (grads s)) (cfg : TdvpCfg n) (heigh : EighCorrect cfg)
    (hq : cfg.makeReal = "imag") (hs : 0 ≤ cfg.diagonalShift ∧ cfg.diagonalShift ≤ 1e-10)
    (hex : cfg.isExact = true) (x : ℝ) (hx : 0 < x) (hpre : cfg.rhsPrefactor = (x : ℂ))
    (zeroCfg : C) (b : ℤ) (r : ℕ) (hr : r < List.length w)
    (at₀ at₁ : TdvpAttrs n) (res : SolveRes n)
    (hres : tdvpSolveSamples cfg r kernel ⟨logPsi θ, true⟩ zeroCfg b grads w at₀ = .ok (res, at₁))
    (u : Fin (n + 1) → ℝ) (hu : res.update = some u) :
    ∃ e : ℝ, HasDerivAt (fun τ : ℝ => expect O fun c => Complex.exp (logPsi (θ + τ • u) c)) (e : ℂ) 0 ∧
      e ≤ 0 ∧ (u ≠ 0 → e < 0) := by
  have h := c89_samples hst.operator ⟨logPsi θ, true⟩ rfl zeroCfg b w hst.samples hst.nonneg cfg heigh hs.2
    hex r hr grads partner isRe hp hl at₀
  rw [show ({ cfg with makeReal := "imag" } : TdvpCfg n) = cfg by rw [← hq], hres] at h
  cases hr1 : tdvpSolveSamples { cfg with makeReal := "real" } r kernel ⟨logPsi θ, true⟩ zeroCfg b grads w
      at₀ with
  | error e => rw [hr1] at h; cases h
  | ok v =>
    obtain ⟨res', at'⟩ := v
    rw [hr1] at h
    have h : res = res' := Except.ok.inj h
    subst h
    exact c79_energy_decreases logPsi θ grads w hst { cfg with makeReal := "real" } heigh (by simp) x hx
      hpre hs.1 zeroCfg b r hr at₀ at' res hr1 u hu

/-- C89: with an imaginary prefactor (real time), the energy of a holomorphic network is conserved along
the update although `makeReal="real"` is chosen. -/
theorem c89_energy_conserved [Nonempty C] (logPsi : (Fin (n + 1) → ℝ) → C → ℂ)
    (θ : Fin (n + 1) → ℝ) (grads : C → Fin (n + 1) → ℂ) (w : World (C × ℂ × ℝ))
    (hst : TdvpStep kernel O logPsi θ grads w) (partner : Fin (n + 1) → Fin (n + 1))
    (isRe : Fin (n + 1) → Bool) (hp : IsPairing partner isRe)
    (hl : ∀ s, HoloGrad partner isRe (grads s)) (cfg : TdvpCfg n) (heigh : EighCorrect cfg)
    (hq : cfg.makeReal = "real") (hs : cfg.diagonalShift ≤ 1e-10)
    (hex : cfg.isExact = true) (y : ℝ) (hy : y ≠ 0) (hpre : cfg.rhsPrefactor = Complex.I * (y : ℂ))
    (zeroCfg : C) (b : ℤ) (r : ℕ) (hr : r < List.length w)
    (at₀ at₁ : TdvpAttrs n) (res : SolveRes n)
    (hres : tdvpSolveSamples cfg r kernel ⟨logPsi θ, true⟩ zeroCfg b grads w at₀ = .ok (res, at₁))
    (u : Fin (n + 1) → ℝ) (hu : res.update = some u) :
    HasDerivAt (fun τ : ℝ => expect O fun c => Complex.exp (logPsi (θ + τ • u) c)) 0 0 := by
  have h := c89_samples hst.operator ⟨logPsi θ, true⟩ rfl zeroCfg b w hst.samples hst.nonneg cfg heigh hs
    hex r hr grads partner isRe hp hl at₀
  rw [show ({ cfg with makeReal := "real" } : TdvpCfg n) = cfg by rw [← hq], hres] at h
  cases hr1 : tdvpSolveSamples { cfg with makeReal := "imag" } r kernel ⟨logPsi θ, true⟩ zeroCfg b grads w
      at₀ with
  | error e => rw [hr1] at h; cases h
  | ok v =>
    obtain ⟨res', at'⟩ := v
    rw [hr1] at h
    have h : res' = res := Except.ok.inj h
    subst h
    exact c80_energy_conserved logPsi θ grads w hst { cfg with makeReal := "imag" } rfl y hy hpre zeroCfg b
      r hr at₀ at' res' hr1 u hu

end Net

/-! ## The gradients of a holomorphic network -/

/-- Partner of position `k` when leaves of the given sizes are flattened as `[x, i x]`. -/
def partnerIdx : List ℕ → ℕ → ℕ
  | [], k => k
  | a :: rest, k => if k < a then k + a else if k < 2 * a then k - a else 2 * a + partnerIdx rest (k - 2 * a)

/-- Whether position `k` is a real part. -/
def isReIdx : List ℕ → ℕ → Bool
  | [], _ => true
  | a :: rest, k => if k < a then true else if k < 2 * a then false else isReIdx rest (k - 2 * a)

theorem partnerIdx_spec (sizes : List ℕ) : ∀ k, k < 2 * sizes.sum →
    partnerIdx sizes k < 2 * sizes.sum ∧ partnerIdx sizes (partnerIdx sizes k) = k ∧
      isReIdx sizes (partnerIdx sizes k) = !isReIdx sizes k := by
  induction sizes with
  | nil => intro k hk; simp at hk
  | cons a rest ih =>
    intro k hk
    rw [List.sum_cons] at hk ⊢
    by_cases h1 : k < a
    · have e : partnerIdx (a :: rest) k = k + a := by simp [partnerIdx, h1]
      rw [e]
      refine ⟨by omega, ?_, ?_⟩
      · simp only [partnerIdx]
        rw [if_neg (by omega), if_pos (by omega)]
        omega
      · simp only [isReIdx]
        rw [if_neg (by omega), if_pos (by omega), if_pos h1]
        rfl
    · by_cases h2 : k < 2 * a
      · have e : partnerIdx (a :: rest) k = k - a := by simp [partnerIdx, h1, h2]
        rw [e]
        refine ⟨by omega, ?_, ?_⟩
        · simp only [partnerIdx]
          rw [if_pos (by omega)]
          omega
        · simp only [isReIdx]
          rw [if_pos (by omega), if_neg h1, if_pos h2]
          rfl
      · obtain ⟨i1, i2, i3⟩ := ih (k - 2 * a) (by omega)
        have e : partnerIdx (a :: rest) k = 2 * a + partnerIdx rest (k - 2 * a) := by
          simp [partnerIdx, h1, h2]
        rw [e]
        refine ⟨by omega, ?_, ?_⟩
        · simp only [partnerIdx]
          rw [if_neg (by omega), if_neg (by omega), Nat.add_sub_cancel_left, i2]
          omega
        · simp only [isReIdx]
          rw [if_neg (by omega), if_neg (by omega), Nat.add_sub_cancel_left, i3, if_neg h1, if_neg h2]

theorem paired_flat (X : List (List ℂ)) : ∀ k, k < 2 * (X.map List.length).sum →
    isReIdx (X.map List.length) k = true →
      (X.flatMap fun x => x ++ x.map (Complex.I * ·)).getD (partnerIdx (X.map List.length) k) 0
        = Complex.I * (X.flatMap fun x => x ++ x.map (Complex.I * ·)).getD k 0 := by
  induction X with
  | nil => intro k hk; simp at hk
  | cons a rest ih =>
    intro k hk hre
    rw [List.map_cons, List.sum_cons] at hk
    simp only [List.map_cons, isReIdx] at hre
    simp only [List.map_cons, List.flatMap_cons, partnerIdx]
    have hlen : (a ++ a.map (Complex.I * ·)).length = 2 * a.length := by simp; omega
    by_cases h1 : k < a.length
    · rw [if_pos h1, List.getD_append (a ++ _) _ _ (k + a.length) (by omega),
        List.getD_append (a ++ _) _ _ k (by omega), List.getD_append_right a _ _ (k + a.length) (by omega),
        List.getD_append a _ _ k h1, Nat.add_sub_cancel]
      simp [h1]
    · by_cases h2 : k < 2 * a.length
      · rw [if_neg h1, if_pos h2] at hre
        cases hre
      · rw [if_neg h1, if_neg h2] at hre
        rw [if_neg h1, if_neg h2, List.getD_append_right _ _ _ _ (by omega),
          List.getD_append_right _ _ _ k (by omega), hlen, Nat.add_sub_cancel_left]
        exact ih (k - 2 * a.length) (by omega) hre

/-- C89: the gradients of a network with complex parameters for which the holomorphic formula was
selected are of this kind, for every configuration, with a pairing that depends on the shapes only. -/
theorem c89_gradients (L : List (List ℂ)) (m : ℕ) (hm : m = (flattenParams (.cpx L)).length) :
    ∃ partner isRe, IsPairing (m := m) partner isRe ∧ ∀ f : List (List ℂ) → ℂ,
      HoloGrad partner isRe fun k => (gradientsCpx .holo f L).getD k 0 := by
  have hlen : (flattenParams (.cpx L)).length = 2 * (L.map List.length).sum := by
    have := flatC_length L
    unfold flatC at this
    rw [flattenParams, this, List.sum_map_mul_left]
  rw [hlen] at hm
  have hspec := partnerIdx_spec (L.map List.length)
  refine ⟨fun k => ⟨partnerIdx (L.map List.length) k, hm ▸ (hspec k (hm ▸ k.isLt)).1⟩,
    fun k => isReIdx (L.map List.length) k, ⟨fun k => ?_, fun k => ?_⟩, fun f k hk => ?_⟩
  · exact Fin.ext (hspec k (hm ▸ k.isLt)).2.1
  · exact (hspec k (hm ▸ k.isLt)).2.2
  · have hl : (jaxGradCpx (fun p => (f p).re) L).map List.length = L.map List.length :=
      jaxGradCpx_lengths _ _
    have := paired_flat (jaxGradCpx (fun p => (f p).re) L) k
    rw [hl] at this
    exact this (hm ▸ k.isLt) hk

/-! ## Cases -/

theorem spin_pairing : IsPairing (m := 2) (fun k => 1 - k) (fun k => k == 0) := by
  constructor <;> intro k <;> fin_cases k <;> rfl

theorem spin_holo (s : Fin 2) :
    HoloGrad (m := 2) (fun k => 1 - k) (fun k => k == 0) ![(s.val : ℂ), Complex.I * s.val] := by
  intro k hk
  fin_cases k
  · rfl
  · simp at hk

/-- Case for `c89_samples`: imaginary time, one spin; the update is the same non-zero vector. -/
example : ∃ res at₁ res' at₁' u, tdvpSolveSamples spinCfg 1 spinKernel ⟨spinLog 0, true⟩ 0 1
    (fun s => ![(s.val : ℂ), Complex.I * s.val]) spinWorld {} = .ok (res, at₁) ∧
    tdvpSolveSamples { spinCfg with makeReal := "imag" } 1 spinKernel ⟨spinLog 0, true⟩ 0 1
      (fun s => ![(s.val : ℂ), Complex.I * s.val]) spinWorld {} = .ok (res', at₁') ∧
    res.update = some u ∧ u ≠ 0 ∧ res'.update = some u := by
  obtain ⟨res, at₁, u, h1, h2, h3⟩ := spin_update
  have h := c89_samples spin_operator ⟨spinLog 0, true⟩ rfl 0 1 spinWorld spin_samples spin_step.nonneg
    spinCfg (someEigh_correct _ rfl) (by norm_num [spinCfg]) rfl 1 (by simp [spinWorld]) _ _ _
    spin_pairing spin_holo {}
  rw [show ({ spinCfg with makeReal := "real" } : TdvpCfg 1) = spinCfg from rfl, h1] at h
  cases hr : tdvpSolveSamples { spinCfg with makeReal := "imag" } 1 spinKernel ⟨spinLog 0, true⟩ 0 1
      (fun s => ![(s.val : ℂ), Complex.I * s.val]) spinWorld {} with
  | error e => rw [hr] at h; cases h
  | ok v =>
    obtain ⟨res', at'⟩ := v
    rw [hr] at h
    have h : res' = res := Except.ok.inj h
    subst h
    exact ⟨res', at₁, res', at', u, h1, rfl, h2, h3, h2⟩

/-- Case for `c89_gradients`: leaves of two and one parameters. -/
example : ∃ partner isRe, IsPairing (m := 6) partner isRe ∧ ∀ f : List (List ℂ) → ℂ,
    HoloGrad partner isRe fun k => (gradientsCpx .holo f [[1, 2], [Complex.I]]).getD k 0 :=
  c89_gradients _ 6 rfl

end JVMC
