import Mathlib.Algebra.Order.Field.Basic
import Mathlib.Analysis.SpecificLimits.Basic
import Mathlib.Tactic.Linarith
import Mathlib.Tactic.Positivity
import Verif.Model.Tdvp
import Verif.Spec.Tdvp
import Verif.Props.Stats
import Verif.Props.Vqs

/-!
# Lemmas on the TDVP solver
-/

namespace JVMC

open Spec

/-! ## Loops -/

theorem whileLoop_some {S : Type} (cond : S → Bool) (body : S → S) (s : S)
    (h : ∃ n : ℕ, cond (body^[n] s) = false) : ∃ s', whileLoop cond body s = some s' := by
  unfold whileLoop
  rw [dif_pos h]
  exact ⟨_, rfl⟩

theorem whileLoop_zero {S : Type} (cond : S → Bool) (body : S → S) (s : S) (h : cond s = false) :
    whileLoop cond body s = some s := by
  have hex : ∃ n : ℕ, cond (body^[n] s) = false := ⟨0, h⟩
  unfold whileLoop
  rw [dif_pos hex]
  classical
  have : Nat.find hex = 0 := (Nat.find_eq_zero hex).mpr h
  congr 1
  rw [show (@Nat.find _ _ hex) = 0 from by convert this]
  rfl

/-- The result of a loop is reached after finitely many passes, the condition holds before each of
them and fails at the end. -/
theorem whileLoop_spec {S : Type} (cond : S → Bool) (body : S → S) (s s' : S)
    (h : whileLoop cond body s = some s') :
    ∃ n : ℕ, s' = body^[n] s ∧ cond s' = false ∧ ∀ k < n, cond (body^[k] s) = true := by
  unfold whileLoop at h
  split at h
  · rename_i hex
    have h := Option.some.inj h
    classical
    refine ⟨Nat.find hex, h.symm, ?_, ?_⟩
    · rw [← h]; exact Nat.find_spec hex
    · intro k hk
      have := Nat.find_min hex hk
      simpa using this
  · cases h

/-- Invariants of a loop. -/
theorem whileLoop_inv {S : Type} (cond : S → Bool) (body : S → S) (P : S → Prop) (s s' : S)
    (h0 : P s) (hstep : ∀ x, P x → cond x = true → P (body x))
    (h : whileLoop cond body s = some s') : P s' ∧ cond s' = false := by
  obtain ⟨n, rfl, hc, hk⟩ := whileLoop_spec cond body s s' h
  refine ⟨?_, hc⟩
  have : ∀ j, j ≤ n → P (body^[j] s) := by
    intro j
    induction j with
    | zero => intro _; exact h0
    | succ j ih =>
      intro hj
      rw [Function.iterate_succ_apply']
      exact hstep _ (ih (by omega)) (hk j (by omega))
  exact this n le_rfl

variable {n : ℕ}

theorem pinv_cutoff (cfg : TdvpCfg n) (sp : TdvpSpectrum n) (snr : Fin (n + 1) → Num)
    (F : Fin (n + 1) → ℂ) (s : PinvState n) (k : ℕ) :
    ((pinvBody cfg sp snr F)^[k] s).cutoff = s.cutoff * (4 / 5) ^ k := by
  induction k with
  | zero => simp
  | succ k ih =>
    rw [Function.iterate_succ_apply']
    change ((pinvBody cfg sp snr F)^[k] s).cutoff * (4 / 5) = _
    rw [ih, pow_succ]; ring

theorem pinv_terminates (cfg : TdvpCfg n) (hc : 0 < cfg.pinvCutoff) (sp : TdvpSpectrum n)
    (snr : Fin (n + 1) → Num) (F : Fin (n + 1) → ℂ) : ∃ s, pinvLoop cfg sp snr F = some s := by
  apply whileLoop_some
  obtain ⟨k, hk⟩ := exists_pow_lt_of_lt_one (show (0 : ℝ) < cfg.pinvCutoff by exact hc)
    (show (4 / 5 : ℝ) < 1 by norm_num)
  refine ⟨k, ?_⟩
  unfold pinvCond
  rw [pinv_cutoff, Bool.and_eq_false_iff]
  right
  simp only [decide_eq_false_iff_not, not_lt]
  have : (0 : ℝ) ≤ (4 / 5) ^ k := by positivity
  norm_num at this ⊢
  linarith

/-- Before the first pass there is no pseudo-inverse; after every pass the state is the outcome of a
body. -/
def PinvInv (cfg : TdvpCfg n) (sp : TdvpSpectrum n) (snr : Fin (n + 1) → Num)
    (F : Fin (n + 1) → ℂ) (s : PinvState n) : Prop :=
  s = ⟨some 1, 1e-2, none⟩ ∨ ∃ s₀, pinvCond cfg s₀ = true ∧ s = pinvBody cfg sp snr F s₀

theorem pinv_inv (cfg : TdvpCfg n) (sp : TdvpSpectrum n) (snr : Fin (n + 1) → Num)
    (F : Fin (n + 1) → ℂ) (s : PinvState n) (h : pinvLoop cfg sp snr F = some s) :
    PinvInv cfg sp snr F s ∧ pinvCond cfg s = false :=
  whileLoop_inv _ _ (PinvInv cfg sp snr F) _ _ (Or.inl rfl)
    (fun x _ hx => Or.inr ⟨x, hx, rfl⟩) h

/-! ## The equation -/

theorem atRank_map {A B : Type} (l : List A) (b : B) (r : ℕ) (hr : r < l.length) :
    atRank r (l.map fun _ => b) = .ok b := by
  unfold atRank
  rw [List.getElem?_map, List.getElem?_eq_getElem hr]
  rfl

/-- The data of a TDVP call: `Eloc` and `gradients` built from weights, energies and gradients. -/
def IsTdvpData (joint : World (ℝ × (Fin 1 → ℂ) × (Fin (n + 1) → ℂ))) (E : SObs (Fin 1))
    (G : SObs (Fin (n + 1))) : Prop :=
  SObs.create (World.map (fun s => (s.1, s.2.1)) joint) = .ok E ∧
  SObs.create (World.map (fun s => (s.1, s.2.2)) joint) = .ok G

/-- Force and Fisher matrix of the samples. -/
noncomputable def specF (l : List (ℝ × (Fin 1 → ℂ) × (Fin (n + 1) → ℂ))) (i : Fin (n + 1)) : ℂ :=
  wCross (l.map fun s => (s.1, s.2.2, s.2.1)) i 0

noncomputable def specS (l : List (ℝ × (Fin 1 → ℂ) × (Fin (n + 1) → ℂ))) :
    Matrix (Fin (n + 1)) (Fin (n + 1)) ℂ :=
  Matrix.of fun i j => wCross (l.map fun s => (s.1, s.2.2, s.2.2)) i j

/-- `q[S]` with the diagonal shift. -/
noncomputable def specQS (cfg : TdvpCfg n) (l : List (ℝ × (Fin 1 → ℂ) × (Fin (n + 1) → ℂ))) :
    Matrix (Fin (n + 1)) (Fin (n + 1)) ℂ :=
  if cfg.diagonalShift > 1e-10 then
    (Matrix.of fun i j => cfg.q (specS l i j))
      + Matrix.diagonal (fun i => (cfg.diagonalShift : ℂ) * cfg.q (specS l i i))
  else Matrix.of fun i j => cfg.q (specS l i j)

/-- `q[-x F]` of the samples. -/
noncomputable def specQF (cfg : TdvpCfg n) (l : List (ℝ × (Fin 1 → ℂ) × (Fin (n + 1) → ℂ))) :
    Fin (n + 1) → ℂ := fun i => cfg.q ((-cfg.rhsPrefactor) * specF l i)

noncomputable def specEqn (cfg : TdvpCfg n) (l : List (ℝ × (Fin 1 → ℂ) × (Fin (n + 1) → ℂ))) :
    TdvpEqn n :=
  ⟨wMean (l.map fun s => (s.1, s.2.1)) 0, wVar (l.map fun s => (s.1, s.2.1)) 0,
    fun i => (-cfg.rhsPrefactor) * specF l i, specS l⟩

theorem data_covar (joint : World (ℝ × (Fin 1 → ℂ) × (Fin (n + 1) → ℂ))) (h : ∀ r ∈ joint, r ≠ [])
    (hw : ∀ s ∈ allSamples joint, 0 ≤ s.1) (E : SObs (Fin 1)) (G : SObs (Fin (n + 1)))
    (hd : IsTdvpData joint E G) :
    E.mean = List.map (fun _ => wMean ((allSamples joint).map fun s => (s.1, s.2.1))) joint ∧
    E.var = .ok (List.map (fun _ => wVar ((allSamples joint).map fun s => (s.1, s.2.1))) joint) ∧
    G.covar E = .ok (List.map (fun _ => wCross ((allSamples joint).map fun s => (s.1, s.2.2, s.2.1)))
      joint) ∧
    G.covar G = .ok (List.map (fun _ => wCross ((allSamples joint).map fun s => (s.1, s.2.2, s.2.2)))
      joint) := by
  obtain ⟨hE, hG⟩ := hd
  have hwE : ∀ s ∈ allSamples (World.map (fun s => (s.1, s.2.1)) joint), 0 ≤ s.1 := by
    intro s hs
    rw [allSamples_wmap] at hs
    obtain ⟨t, ht, rfl⟩ := List.mem_map.mp hs
    exact hw t ht
  refine ⟨?_, ?_, ?_, ?_⟩
  · obtain ⟨o, ho, hm⟩ := c41_mean _ (World.map_ne (fun s : ℝ × (Fin 1 → ℂ) × (Fin (n + 1) → ℂ) =>
      (s.1, s.2.1)) joint h)
    rw [hE] at ho
    obtain rfl := Except.ok.inj ho
    rw [hm, World.const_map, allSamples_wmap]
  · obtain ⟨o, ho, hm⟩ := c41_var _ (World.map_ne (fun s : ℝ × (Fin 1 → ℂ) × (Fin (n + 1) → ℂ) =>
      (s.1, s.2.1)) joint h) hwE
    rw [hE] at ho
    obtain rfl := Except.ok.inj ho
    rw [hm, World.const_map, allSamples_wmap]
  · obtain ⟨a, b, ha, hb, hc⟩ := c41_covar (World.map (fun s : ℝ × (Fin 1 → ℂ) × (Fin (n + 1) → ℂ) =>
      (s.1, s.2.2, s.2.1)) joint) (World.map_ne _ _ h) (by
        intro s hs
        rw [allSamples_wmap] at hs
        obtain ⟨t, ht, rfl⟩ := List.mem_map.mp hs
        exact hw t ht)
    rw [World.map_map] at ha hb
    rw [hG] at ha
    rw [hE] at hb
    obtain rfl := Except.ok.inj ha
    obtain rfl := Except.ok.inj hb
    rw [hc, World.const_map, allSamples_wmap]
  · obtain ⟨a, b, ha, hb, hc⟩ := c41_covar (World.map (fun s : ℝ × (Fin 1 → ℂ) × (Fin (n + 1) → ℂ) =>
      (s.1, s.2.2, s.2.2)) joint) (World.map_ne _ _ h) (by
        intro s hs
        rw [allSamples_wmap] at hs
        obtain ⟨t, ht, rfl⟩ := List.mem_map.mp hs
        exact hw t ht)
    rw [World.map_map] at ha hb
    rw [hG] at ha hb
    obtain rfl := Except.ok.inj ha
    obtain rfl := Except.ok.inj hb
    rw [hc, World.const_map, allSamples_wmap]

theorem getTdvpEquation_eq (cfg : TdvpCfg n) (r : ℕ)
    (joint : World (ℝ × (Fin 1 → ℂ) × (Fin (n + 1) → ℂ))) (h : ∀ r ∈ joint, r ≠ [])
    (hw : ∀ s ∈ allSamples joint, 0 ≤ s.1) (hr : r < List.length joint)
    (E : SObs (Fin 1)) (G : SObs (Fin (n + 1))) (hd : IsTdvpData joint E G) (at₀ : TdvpAttrs n) :
    getTdvpEquation cfg r (some (E, G)) at₀
      = .ok (some (specQS cfg (allSamples joint), specQF cfg (allSamples joint)),
        { at₀ with eqn := some (some (specEqn cfg (allSamples joint))) }) := by
  obtain ⟨h1, h2, h3, h4⟩ := data_covar joint h hw E G hd
  unfold getTdvpEquation
  simp only [h1, h2, h3, h4]
  change Except.bind (atRank r _) _ = _
  rw [atRank_map _ _ _ hr]
  change Except.bind (atRank r _) _ = _
  rw [atRank_map _ _ _ hr]
  change Except.bind (atRank r _) _ = _
  rw [atRank_map _ _ _ hr]
  change Except.bind (atRank r _) _ = _
  rw [atRank_map _ _ _ hr]
  change Except.ok _ = Except.ok _
  congr 3

/-! ## The functions `q` -/

/-- `q` maps to the real numbers (`ε = 1`) or to the imaginary axis (`ε = -1`). -/
noncomputable def TdvpCfg.sign (cfg : TdvpCfg n) : ℝ := if cfg.makeReal = "imag" then -1 else 1

theorem sign_cases (cfg : TdvpCfg n) : cfg.sign = 1 ∨ cfg.sign = -1 := by
  unfold TdvpCfg.sign
  split
  · right; rfl
  · left; rfl

theorem q_conj (cfg : TdvpCfg n) (z : ℂ) :
    (starRingEnd ℂ) (cfg.q z) = (cfg.sign : ℂ) * cfg.q z := by
  unfold TdvpCfg.q TdvpCfg.sign
  split
  · apply Complex.ext
    · simp
    · simp; ring
  · simp

theorem q_of_conj (cfg : TdvpCfg n) (z : ℂ) : cfg.q ((starRingEnd ℂ) z) = (starRingEnd ℂ) (cfg.q z) := by
  unfold TdvpCfg.q
  split
  · apply Complex.ext
    · simp
    · simp
  · simp

theorem specS_conj (l : List (ℝ × (Fin 1 → ℂ) × (Fin (n + 1) → ℂ))) (i j : Fin (n + 1)) :
    (starRingEnd ℂ) (specS l i j) = specS l j i := by
  unfold specS wCross
  simp only [Matrix.of_apply]
  rw [map_list_sum]
  simp only [List.map_map]
  congr 1
  apply List.map_congr_left
  intro s _
  simp only [Function.comp_def, map_mul, Complex.conj_ofReal, Complex.conj_conj, map_sub]
  ring

theorem specQS_apply (cfg : TdvpCfg n) (l : List (ℝ × (Fin 1 → ℂ) × (Fin (n + 1) → ℂ)))
    (i j : Fin (n + 1)) : ∃ a : ℝ, specQS cfg l i j = (a : ℂ) * cfg.q (specS l i j) ∧
      specQS cfg l j i = (a : ℂ) * cfg.q (specS l j i) := by
  unfold specQS
  by_cases hij : i = j
  · subst hij
    split
    · exact ⟨1 + cfg.diagonalShift, by simp [Matrix.add_apply]; ring, by simp [Matrix.add_apply]; ring⟩
    · exact ⟨1, by simp, by simp⟩
  · have hji : j ≠ i := fun h => hij h.symm
    split
    · exact ⟨1, by simp [Matrix.add_apply, hij], by simp [Matrix.add_apply, hji]⟩
    · exact ⟨1, by simp, by simp⟩

theorem specQS_hermitian (cfg : TdvpCfg n) (l : List (ℝ × (Fin 1 → ℂ) × (Fin (n + 1) → ℂ))) :
    (specQS cfg l).IsHermitian := by
  ext i j
  obtain ⟨a, h1, h2⟩ := specQS_apply cfg l i j
  rw [Matrix.conjTranspose_apply, h1, h2, star_mul', ← specS_conj, q_of_conj]
  simp

theorem specQS_sign (cfg : TdvpCfg n) (l : List (ℝ × (Fin 1 → ℂ) × (Fin (n + 1) → ℂ)))
    (i j : Fin (n + 1)) :
    (starRingEnd ℂ) (specQS cfg l i j) = (cfg.sign : ℂ) * specQS cfg l i j := by
  obtain ⟨a, h1, _⟩ := specQS_apply cfg l i j
  rw [h1, map_mul, q_conj, Complex.conj_ofReal]
  ring

/-! ## Linear algebra -/

section linalg

variable {m : ℕ}

open Matrix

theorem sum_normSq_eq (v : Fin m → ℂ) : ((∑ i, Complex.normSq (v i) : ℝ) : ℂ) = star v ⬝ᵥ v := by
  push_cast
  simp only [dotProduct, Pi.star_apply, RCLike.star_def]
  refine Finset.sum_congr rfl fun i _ => ?_
  rw [Complex.normSq_eq_conj_mul_self]

theorem euclid_unitary (V : Matrix (Fin m) (Fin m) ℂ) (hV : Vᴴ * V = 1) (y : Fin m → ℂ) :
    euclid (V *ᵥ y) = euclid y := by
  unfold euclid
  congr 1
  have : ((∑ i, Complex.normSq ((V *ᵥ y) i) : ℝ) : ℂ) = ((∑ i, Complex.normSq (y i) : ℝ) : ℂ) := by
    rw [sum_normSq_eq, sum_normSq_eq, Matrix.star_mulVec, Matrix.dotProduct_mulVec,
      Matrix.vecMul_vecMul, hV, Matrix.vecMul_one]
  exact_mod_cast this

/-- The residual in the eigenbasis. -/
theorem residual_eigenbasis (S V : Matrix (Fin m) (Fin m) ℂ) (ev p : Fin m → ℝ) (F : Fin m → ℂ)
    (h : IsEigh S ev V) :
    relResidual S F (V *ᵥ fun k => (p k : ℂ) * (Vᴴ *ᵥ F) k)
      = euclid (fun k => ((p k * ev k - 1 : ℝ) : ℂ) * (Vᴴ *ᵥ F) k) / euclid F := by
  unfold relResidual
  congr 1
  rw [← euclid_unitary V h.unitary (fun k => ((p k * ev k - 1 : ℝ) : ℂ) * (Vᴴ *ᵥ F) k)]
  congr 1
  have hF : V *ᵥ (Vᴴ *ᵥ F) = F := by
    rw [Matrix.mulVec_mulVec, mul_eq_one_comm.mp h.unitary, Matrix.one_mulVec]
  have hS : S *ᵥ (V *ᵥ fun k => (p k : ℂ) * (Vᴴ *ᵥ F) k)
      = V *ᵥ fun k => ((p k * ev k : ℝ) : ℂ) * (Vᴴ *ᵥ F) k := by
    rw [Matrix.mulVec_mulVec, h.decomp, ← Matrix.mulVec_mulVec]
    congr 1
    funext k
    rw [Matrix.mulVec_diagonal]
    push_cast
    ring
  funext i
  have hF' : F i = (V *ᵥ (Vᴴ *ᵥ F)) i := by rw [hF]
  rw [hS, hF', ← Pi.sub_apply, ← Matrix.mulVec_sub]
  congr 2
  funext k
  simp only [Pi.sub_apply]
  push_cast
  ring

theorem normSq_half (ε : ℝ) (hε : ε = 1 ∨ ε = -1) (w : ℂ) :
    Complex.normSq ((w + (ε : ℂ) * (starRingEnd ℂ) w) / 2) ≤ Complex.normSq w := by
  rcases hε with rfl | rfl
  · simp only [Complex.normSq_apply]
    simp
    nlinarith [mul_self_nonneg w.im]
  · simp only [Complex.normSq_apply]
    simp
    nlinarith [mul_self_nonneg w.re]

/-- Taking the real part of a solution does not increase the residual if `S` and `F` are both real or
both imaginary. -/
theorem residual_re_le (S : Matrix (Fin m) (Fin m) ℂ) (F x : Fin m → ℂ) (ε : ℝ)
    (hε : ε = 1 ∨ ε = -1) (hS : ∀ i j, (starRingEnd ℂ) (S i j) = (ε : ℂ) * S i j)
    (hF : ∀ i, (starRingEnd ℂ) (F i) = (ε : ℂ) * F i) :
    relResidual S F (fun i => ((x i).re : ℂ)) ≤ relResidual S F x := by
  unfold relResidual
  apply div_le_div_of_nonneg_right _ (Real.sqrt_nonneg _)
  unfold euclid
  apply Real.sqrt_le_sqrt
  apply Finset.sum_le_sum
  intro i _
  have hεε : (ε : ℂ) * ε = 1 := by rcases hε with rfl | rfl <;> simp
  have : (S *ᵥ fun i => ((x i).re : ℂ)) i - F i
      = ((S *ᵥ x) i - F i + (ε : ℂ) * (starRingEnd ℂ) ((S *ᵥ x) i - F i)) / 2 := by
    have hre : (fun i => ((x i).re : ℂ)) = fun i => (x i + (starRingEnd ℂ) (x i)) / 2 := by
      funext i
      rw [Complex.re_eq_add_conj]
    rw [hre]
    simp only [mulVec, dotProduct, map_sub, map_sum, map_mul, hS, hF]
    have e1 : ∑ j, S i j * ((x j + (starRingEnd ℂ) (x j)) / 2)
        = (∑ j, S i j * x j + ∑ j, S i j * (starRingEnd ℂ) (x j)) / 2 := by
      rw [← Finset.sum_add_distrib, Finset.sum_div]
      exact Finset.sum_congr rfl fun j _ => by ring
    have e2 : (ε : ℂ) * ∑ j, ε * S i j * (starRingEnd ℂ) (x j) = ∑ j, S i j * (starRingEnd ℂ) (x j) := by
      rw [Finset.mul_sum]
      exact Finset.sum_congr rfl fun j _ => by linear_combination (S i j * (starRingEnd ℂ) (x j)) * hεε
    rw [e1]
    have : (ε : ℂ) * (∑ j, ε * S i j * (starRingEnd ℂ) (x j) - ε * F i)
        = ∑ j, S i j * (starRingEnd ℂ) (x j) - F i := by
      rw [mul_sub, e2]
      linear_combination (-F i) * hεε
    rw [this]
    ring
  beta_reduce
  rw [this]
  exact normSq_half ε hε _

/-- If the regularised inverse is an odd function of the eigenvalues (any function in the real case),
the solution is real. -/
theorem solution_real (S V : Matrix (Fin m) (Fin m) ℂ) (ev p : Fin m → ℝ) (F : Fin m → ℂ) (ε : ℝ)
    (h : IsEigh S ev V) (hH : S.IsHermitian) (hε : ε = 1 ∨ ε = -1)
    (hS : ∀ i j, (starRingEnd ℂ) (S i j) = (ε : ℂ) * S i j)
    (hF : ∀ i, (starRingEnd ℂ) (F i) = (ε : ℂ) * F i)
    (hp : ∀ i j, ev i = ε * ev j → p i = ε * p j) (i : Fin m) :
    (starRingEnd ℂ) ((V *ᵥ fun k => (p k : ℂ) * (Vᴴ *ᵥ F) k) i)
      = (V *ᵥ fun k => (p k : ℂ) * (Vᴴ *ᵥ F) k) i := by
  have hεε : (ε : ℂ) * ε = 1 := by rcases hε with rfl | rfl <;> simp
  set W := V.map (starRingEnd ℂ) with hW
  set D : Matrix (Fin m) (Fin m) ℂ := Matrix.diagonal fun k => (p k : ℂ) with hD
  set Λ : Matrix (Fin m) (Fin m) ℂ := Matrix.diagonal fun k => (ev k : ℂ) with hΛ
  have hcD : D.map (starRingEnd ℂ) = D := by
    rw [hD]; ext i j; by_cases hij : i = j
    · subst hij; simp
    · simp [hij]
  have hcΛ : Λ.map (starRingEnd ℂ) = Λ := by
    rw [hΛ]; ext i j; by_cases hij : i = j
    · subst hij; simp
    · simp [hij]
  have hcS : S.map (starRingEnd ℂ) = (ε : ℂ) • S := by
    ext i j; simp [hS]
  have hWW : W * Wᴴ = 1 := by
    have h1 := mul_eq_one_comm.mp h.unitary
    have := congrArg (fun X : Matrix (Fin m) (Fin m) ℂ => X.map (starRingEnd ℂ)) h1
    simp only [Matrix.map_mul] at this
    rw [show (1 : Matrix (Fin m) (Fin m) ℂ).map (starRingEnd ℂ) = 1 by simp [Matrix.map_one]] at this
    rw [← this, hW]
    congr 1
  have hSW : (ε : ℂ) • (S * W) = W * Λ := by
    have := congrArg (fun X : Matrix (Fin m) (Fin m) ℂ => X.map (starRingEnd ℂ)) h.decomp
    simp only [Matrix.map_mul] at this
    rw [hcS, hcΛ, Matrix.smul_mul] at this
    exact this
  have hVS : Vᴴ * S = Λ * Vᴴ := by
    have := congrArg Matrix.conjTranspose h.decomp
    rw [Matrix.conjTranspose_mul, Matrix.conjTranspose_mul, hH.eq] at this
    rw [this]
    congr 1
    rw [hΛ, Matrix.diagonal_conjTranspose]
    congr 1
    funext k
    simp
  have hU : ∀ a b, ((ev a : ℂ) - ε * ev b) * (Vᴴ * W) a b = 0 := by
    intro a b
    have e1 : Λ * (Vᴴ * W) = (ε : ℂ) • ((Vᴴ * W) * Λ) := by
      rw [← Matrix.mul_assoc, ← hVS, Matrix.mul_assoc, Matrix.mul_assoc, ← hSW, Matrix.mul_smul,
        smul_smul, hεε, one_smul]
    have := congrFun (congrFun e1 a) b
    rw [hΛ, Matrix.diagonal_mul, Matrix.smul_apply, Matrix.mul_diagonal] at this
    rw [sub_mul, this, smul_eq_mul]
    ring
  have hDU : D * (Vᴴ * W) = (ε : ℂ) • ((Vᴴ * W) * D) := by
    ext a b
    rw [hD, Matrix.diagonal_mul, Matrix.smul_apply, Matrix.mul_diagonal, smul_eq_mul]
    rcases mul_eq_zero.mp (hU a b) with h0 | h0
    · have : p a = ε * p b := hp a b (by
        have := sub_eq_zero.mp h0
        exact_mod_cast this)
      rw [this]; push_cast; ring
    · rw [h0]; ring
  have hkey : V * D * Vᴴ = (ε : ℂ) • (W * D * Wᴴ) := by
    calc V * D * Vᴴ = V * (D * (Vᴴ * W)) * Wᴴ := by
          rw [Matrix.mul_assoc V, Matrix.mul_assoc V, Matrix.mul_assoc D, Matrix.mul_assoc Vᴴ, hWW,
            Matrix.mul_one]
      _ = (ε : ℂ) • (W * D * Wᴴ) := by
          rw [hDU, Matrix.mul_smul, Matrix.smul_mul, ← Matrix.mul_assoc V, ← Matrix.mul_assoc V,
            mul_eq_one_comm.mp h.unitary, Matrix.one_mul]
  have hx : (V *ᵥ fun k => (p k : ℂ) * (Vᴴ *ᵥ F) k) = (V * D * Vᴴ) *ᵥ F := by
    rw [← Matrix.mulVec_mulVec, ← Matrix.mulVec_mulVec]
    congr 1
    funext k
    rw [hD, Matrix.mulVec_diagonal]
  rw [hx]
  have hconj : ∀ (X : Matrix (Fin m) (Fin m) ℂ), (starRingEnd ℂ) ((X *ᵥ F) i)
      = (ε : ℂ) * ((X.map (starRingEnd ℂ)) *ᵥ F) i := by
    intro X
    simp only [mulVec, dotProduct, map_sum, map_mul, hF, Matrix.map_apply]
    rw [Finset.mul_sum]
    exact Finset.sum_congr rfl fun j _ => by ring
  rw [hconj]
  have hmap : (V * D * Vᴴ).map (starRingEnd ℂ) = W * D * Wᴴ := by
    rw [Matrix.map_mul, Matrix.map_mul, hcD]
    congr 1
  rw [hmap, hkey, Matrix.smul_mulVec, Pi.smul_apply, smul_eq_mul]

end linalg

end JVMC
