import Verif.Props.Variational

/-!
# C87: samplers and networks that return plain amplitudes

`NQS(net, logarithmic=False)` declares that the network returns `ψ(s)` instead of `log ψ(s)`
(vqs.py:141-142). `bornAmplitude` is the wave function such an object represents.
-/

namespace JVMC

open Spec

/-- The wave function an `NQS` object represents (vqs.py:141-142). -/
noncomputable def bornAmplitude {S : Type} (psi : Net S) (s : S) : ℂ :=
  if psi.logarithmic then Complex.exp (psi.val s) else psi.val s

/-- C87 for networks that return logarithms: the exact sampler returns every configuration with its
Born probability. Missing: `logarithmic=False`, see `c87_violated`. -/
theorem c87_born_partial (d N D s : ℕ) [NeZero d] (hl : 2 ≤ d) (hD : 0 < D) (hs : 0 < s)
    (hbig : s ≤ d ^ N)
    (hdiv : ∀ r < s, ∀ n g, distributeSampling s r (d ^ N) none 1 = .ok (n, g) → D ∣ n)
    (lastNorm : ℝ) (psi : Net (Fin N → Fin d)) (hlog : psi.logarithmic = true) :
    ∃ ln' w, exactSampleWorld d N D s (toConfig N d) (1 / 2) lastNorm psi.val = .ok (ln', w) ∧
      BornWeights (bornAmplitude psi) (weighted w) := by
  obtain ⟨ln', w, h1, _, _, _, h2⟩ := c77_exact_sampler d N D s hl hD hs hbig hdiv lastNorm psi.val
  refine ⟨ln', w, h1, ?_⟩
  have : bornAmplitude psi = fun c => Complex.exp (psi.val c) := by
    funext c
    simp [bornAmplitude, hlog]
  rwa [this]

/-- What the exact sampler does with a network that returns `ψ(s)`: the weights are the Born
probabilities of `exp(ψ(s))`; they are those of `ψ` exactly if `|exp ψ(s)|²` and `|ψ(s)|²` are
proportional. -/
theorem c87_plain (d N D s : ℕ) [NeZero d] (hl : 2 ≤ d) (hD : 0 < D) (hs : 0 < s)
    (hbig : s ≤ d ^ N)
    (hdiv : ∀ r < s, ∀ n g, distributeSampling s r (d ^ N) none 1 = .ok (n, g) → D ∣ n)
    (lastNorm : ℝ) (psi : Net (Fin N → Fin d)) (hlog : psi.logarithmic = false) :
    ∃ ln' w, exactSampleWorld d N D s (toConfig N d) (1 / 2) lastNorm psi.val = .ok (ln', w) ∧
      BornWeights (fun c => Complex.exp (psi.val c)) (weighted w) ∧
      (BornWeights (bornAmplitude psi) (weighted w) ↔ ∀ c,
        Complex.normSq (Complex.exp (psi.val c)) / norm2 (fun c => Complex.exp (psi.val c))
          = Complex.normSq (psi.val c) / norm2 psi.val) := by
  obtain ⟨ln', w, h1, _, _, _, h2⟩ := c77_exact_sampler d N D s hl hD hs hbig hdiv lastNorm psi.val
  have : bornAmplitude psi = psi.val := by
    funext c
    simp [bornAmplitude, hlog]
  refine ⟨ln', w, h1, h2, ?_⟩
  rw [this]
  exact ⟨fun h c => (h2.born c).symm.trans (h.born c), fun h => ⟨h2.nonneg, fun c =>
    (h2.born c).trans (h c)⟩⟩

/-- One site with amplitudes `ψ(0) = 1`, `ψ(1) = 2`, given as such. -/
noncomputable def plainNet : Net (Fin 1 → Fin 2) := ⟨fun c => if c 0 = 0 then 1 else 2, false⟩

/-- C87 is false for `logarithmic=False`: for `ψ = (1, 2)` the Born probability of the state 0 is 1/5,
the exact sampler returns the weight `1 / (1 + e²)`. -/
theorem c87_violated : ∃ ln' w,
    exactSampleWorld 2 1 1 1 (toConfig 1 2) (1 / 2) 0 plainNet.val = .ok (ln', w) ∧
      ¬ BornWeights (bornAmplitude plainNet) (weighted w) ∧
      Complex.normSq (bornAmplitude plainNet ![0]) / norm2 (bornAmplitude plainNet) = 1 / 5 ∧
      weightOf (weighted w) ![0] = 1 / (1 + Real.exp 2) := by
  obtain ⟨ln', w, h1, h2, h3⟩ := c87_plain 2 1 1 1 le_rfl one_pos one_pos (by norm_num)
    (fun _ _ n _ _ => one_dvd n) 0 plainNet rfl
  have hsum : ∀ f : (Fin 1 → Fin 2) → ℝ, ∑ c, f c = f ![0] + f ![1] := by
    intro f
    rw [← (Equiv.funUnique (Fin 1) (Fin 2)).symm.sum_comp, Fin.sum_univ_two]
    congr 2 <;> (funext i; fin_cases i; rfl)
  have v0 : plainNet.val ![0] = 1 := by simp [plainNet]
  have v1 : plainNet.val ![1] = 2 := by simp [plainNet]
  have hb : bornAmplitude plainNet = plainNet.val := by
    funext c
    simp [bornAmplitude, plainNet]
  have hB : Complex.normSq (plainNet.val ![0]) / norm2 plainNet.val = 1 / 5 := by
    unfold norm2
    rw [hsum, v0, v1]
    norm_num [Complex.normSq_apply]
  have hE : ∀ x : ℝ, Complex.normSq (Complex.exp x) = Real.exp (2 * x) := by
    intro x
    rw [← Complex.ofReal_exp, Complex.normSq_ofReal, ← Real.exp_add]
    congr 1
    ring
  have hW : weightOf (weighted w) ![0] = 1 / (1 + Real.exp 2) := by
    rw [h2.born]
    unfold norm2
    rw [hsum]
    dsimp only
    rw [v0, v1]
    have e1 := hE 1
    have e2 := hE 2
    rw [Complex.ofReal_one] at e1
    rw [Complex.ofReal_ofNat] at e2
    rw [e1, e2, show (2 * 2 : ℝ) = 2 * 1 + 2 by norm_num, Real.exp_add, show (2 * 1 : ℝ) = 2 by norm_num]
    have := Real.exp_pos 2
    field_simp
  refine ⟨ln', w, h1, fun h => ?_, by rw [hb, hB], hW⟩
  have h5 := h.born ![0]
  rw [hW, hb, hB] at h5
  have h6 : Real.exp 2 = 4 := by
    have := Real.exp_pos 2
    field_simp at h5
    linarith
  have h7 : (5 : ℝ) ≤ Real.exp 2 := by
    have := Real.quadratic_le_exp_of_nonneg (x := 2) (by norm_num)
    linarith
  linarith

/-- Non-vacuity of `c87_born_partial`: two spins on two ranks with one device each. -/
example := c87_born_partial 2 2 1 2 le_rfl one_pos two_pos (by norm_num) (fun _ _ n _ _ => one_dvd n) 0
  ⟨fun c => (c 0).val + Complex.I * (c 1).val, true⟩ rfl

end JVMC
