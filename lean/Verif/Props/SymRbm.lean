import Verif.Props.SymRounding
import Verif.Props.RbmChain

/-!
# C147 — a symmetrised Boltzmann machine with rounding errors
-/

namespace JVMC

open Spec

/-- C147: a symmetrised real Boltzmann machine. The error of the coefficient is given by the sizes of the parameters, the number of
symmetry operations and the precision of the machine. -/
theorem c147_rbm {r : Rounding} {F : ElemFuns} {v : ℝ} (hF : Accurate F v) (hv0 : 0 ≤ v) (hv : v ≤ 1 / 2) {n m K : ℕ}
    (hn : (n + 2) * r.u ≤ 1 / 2) (hm : m * r.u ≤ 1 / 2) (hK : 0 < K) (kernel : Fin n → Fin m → ℝ) (bias : Option (Fin m → ℝ))
    (orbit : Fin K → Matrix (Fin n) (Fin n) ℤ) (x : Fin n → ℤ) (hx : ∀ k i, spinImage (orbit k) x i = 0 ∨ spinImage (orbit k) x i = 1)
    {b : Fin K → ℝ} {Λ : ℝ} (hb : WeightsWithin b Λ) (out : ℝ)
    (h : SymNetR (RealRbmR r F kernel bias) (fun c => LogSumExpR r F c b) orbit x out) :
    |out - Real.log (∑ k, b k * Real.exp (realRbm kernel bias (spinImage (orbit k) x)))|
      ≤ rbmError r.u v kernel bias + symError r.u v (rbmError r.u v kernel bias + ∑ j, unitSize kernel bias j) Λ K := by
  have hu : r.u ≤ 1 / 2 := by
    have hu0 := r.u_nonneg
    have : (0 : ℝ) ≤ n * r.u := by positivity
    linarith
  obtain ⟨z, -, hz, he⟩ := c147_symnet hF hv0 hv hu hK (RealRbmR r F kernel bias) (realRbm kernel bias) orbit x hb
    (M := rbmError r.u v kernel bias + ∑ j, unitSize kernel bias j) (δ := rbmError r.u v kernel bias) (fun k y hy => by
      have h1 : |y - realRbm kernel bias (spinImage (orbit k) x)| ≤ rbmError r.u v kernel bias :=
        c145_rbm hF hv0 hv hn hm kernel bias _ (hx k) y hy
      obtain ⟨h2, h3⟩ := realRbm_range kernel bias _ (hx k)
      have h4 := abs_add_le (y - realRbm kernel bias (spinImage (orbit k) x)) (realRbm kernel bias (spinImage (orbit k) x))
      rw [sub_add_cancel, abs_of_nonneg h2] at h4
      exact ⟨h1, by linarith⟩) out h
  rwa [hz] at he

/-- Three spins on a ring, translations, two hidden units, double precision. -/
example : ∃ out, SymNetR (RealRbmR Rounding.double (roundedFuns Rounding.double)
      (fun (i : Fin 3) (j : Fin 2) => if i = 0 then (1 / 2 : ℝ) else j) none)
      (fun c => LogSumExpR Rounding.double (roundedFuns Rounding.double) c fun _ => 1)
      ![!![1, 0, 0; 0, 1, 0; 0, 0, 1], !![0, 1, 0; 0, 0, 1; 1, 0, 0], !![0, 0, 1; 1, 0, 0; 0, 1, 0]] ![1, 0, 1] out ∧
    |out - Real.log (∑ k : Fin 3, 1 * Real.exp (realRbm (fun (i : Fin 3) (j : Fin 2) => if i = 0 then (1 / 2 : ℝ) else j) none
      (spinImage ((![!![1, 0, 0; 0, 1, 0; 0, 0, 1], !![0, 1, 0; 0, 0, 1; 1, 0, 0], !![0, 0, 1; 1, 0, 0; 0, 1, 0]] :
        Fin 3 → Matrix (Fin 3) (Fin 3) ℤ) k) ![1, 0, 1])))| ≤ 1 / 10 ^ 12 := by
  have hu : Rounding.double.u = (2 : ℝ) ^ (-53 : ℤ) := rfl
  obtain ⟨⟨out, ho⟩, -⟩ := c147_exists Rounding.double (roundedFuns Rounding.double) (K := 3) (by norm_num)
    (RealRbmR Rounding.double (roundedFuns Rounding.double)
      (fun (i : Fin 3) (j : Fin 2) => if i = 0 then (1 / 2 : ℝ) else j) none)
    (fun s => c145_exists _ _ _ _ s)
    ![!![1, 0, 0; 0, 1, 0; 0, 0, 1], !![0, 1, 0; 0, 0, 1; 1, 0, 0], !![0, 0, 1; 1, 0, 0; 0, 1, 0]] (fun _ => 1) ![1, 0, 1]
  refine ⟨out, ho, ?_⟩
  refine (c147_rbm (roundedFuns_accurate Rounding.double) Rounding.double.u_nonneg (by rw [hu]; norm_num) (by rw [hu]; norm_num)
    (by rw [hu]; norm_num) (by norm_num) _ _ _ _ (by decide) (b := fun _ => 1) (Λ := 2)
    ⟨fun _ => Real.exp_le_one_iff.mpr (by norm_num), by
      have := Real.add_one_le_exp (2 : ℝ)
      simp
      linarith⟩ out ho).trans ?_
  unfold symError ampSumError rbmError unitSize
  rw [hu]
  simp [Fin.sum_univ_two, Fin.sum_univ_three, abs_of_pos]
  norm_num

end JVMC
