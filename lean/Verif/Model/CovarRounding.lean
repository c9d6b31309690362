import Verif.Model.LocalRounding
import Verif.Model.Tdvp

/-!
# Model of `SampledObs` and of the TDVP equation with rounding errors

`SampledObs.__init__`, `covar`, `var` (`jVMC/stats.py:44-58, 195-252`) and `TDVP.get_tdvp_equation`
(`jVMC/util/tdvp.py:134-148`) in floating point arithmetic. As in Model/Rounding, results are relations: sums in any order,
products fused with the following addition or not, and every rank uses the mean that it received. Simplification: no overflow
and no underflow.
-/

namespace JVMC

variable {ι κ : Type}

/-- stats.py:51, `_data_prep` for one number: `sqrt(w) * (d - m)`; the factor is real. -/
def DataPrepR (r : Rounding) (w : ℝ) (x m d : ℂ) : Prop :=
  ∃ s z, r.Rd (Real.sqrt w) s ∧ CSubR r x m z ∧ r.Rd (s * z.re) d.re ∧ r.Rd (s * z.im) d.im

/-- stats.py:147-205: `SampledObs(observations, weights)`. The means (line 204) are those of `global_mean`. -/
def SampledObsR (r : Rounding) (world : World (ℝ × (ι → ℂ))) (o : SObs ι) : Prop :=
  world.length = o.mean.length ∧
  (∀ m ∈ o.mean, ∀ i, GlobalMeanC r (world.map fun s => (s.1, s.2 i)) (m i)) ∧
  List.Forall₂ (fun wm rows => List.Forall₂ (List.Forall₂ fun s t => t.1 = s.1 ∧ ∀ i, DataPrepR r s.1 (s.2 i) (wm.2 i) (t.2 i))
    wm.1 rows) (world.zip o.mean) o.rows

/-- The real products in the real part of `conj(d) * e`. (stats.py:52-58) -/
def reProducts (d e : ℂ) : List (ℝ × ℝ) := [(d.re, e.re), (d.im, e.im)]

/-- The real products in the imaginary part of `conj(d) * e`. (stats.py:52-58) -/
def imProducts (d e : ℂ) : List (ℝ × ℝ) := [(d.re, e.im), (-d.im, e.re)]

/-- stats.py:52-58, 235-245, `covar`: the values that entry `i`, `k` can have. `tensordot` of complex arrays adds up real
products, in any order, on every device; the arrays need equally many samples. -/
def CovarR (r : Rounding) (a : SObs ι) (b : SObs κ) (i : ι) (k : κ) (v : ℂ) : Prop :=
  ∃ z : World ((ℝ × (ι → ℂ)) × (ℝ × (κ → ℂ))), z.map Prod.fst = a.rows ∧ z.map Prod.snd = b.rows ∧
    GlobalMeanR r (List.map (List.map fun dev => dev.flatMap fun s => reProducts (s.1.2 i) (s.2.2 k)) z) v.re ∧
    GlobalMeanR r (List.map (List.map fun dev => dev.flatMap fun s => imProducts (s.1.2 i) (s.2.2 k)) z) v.im

/-- stats.py:248-252, `var`: the values that component `i` can have; `ab` is the function `jnp.abs` of the machine. -/
def VarR (r : Rounding) (ab : ℂ → ℝ) (a : SObs ι) (i : ι) (v : ℝ) : Prop :=
  ∃ ys, List.Forall₂ (List.Forall₂ (List.Forall₂ fun s y => r.Rd (ab (s.2 i) * ab (s.2 i)) y)) a.rows ys ∧ GlobalSumR r ys v

/-- A real number times a complex number. (tdvp.py:145: `self.diagonalShift * jnp.diag(S)`) -/
def RMulR (r : Rounding) (c : ℝ) (x y : ℂ) : Prop := r.Rd (c * x.re) y.re ∧ r.Rd (c * x.im) y.im

/-- Sum of complex numbers. (tdvp.py:145) -/
def CAddR (r : Rounding) (x y z : ℂ) : Prop := r.Rd (x.re + y.re) z.re ∧ r.Rd (x.im + y.im) z.im

variable {n : ℕ}

/-- tdvp.py:134-148, `get_tdvp_equation`: the values that `S` and `F` can have. Simplification: `realFun` and `imagFun` (lines
14-19) are exact, since doubling and halving are. -/
def TdvpEquationR (r : Rounding) (cfg : TdvpCfg n) (Eloc : SObs (Fin 1)) (gradients : SObs (Fin (n + 1)))
    (S : Matrix (Fin (n + 1)) (Fin (n + 1)) ℂ) (F : Fin (n + 1) → ℂ) : Prop :=
  ∃ (c F0 : Fin (n + 1) → ℂ) (S0 : Matrix (Fin (n + 1)) (Fin (n + 1)) ℂ),
    (∀ i, CovarR r gradients Eloc i 0 (c i)) ∧ (∀ i, CMulR r (-cfg.rhsPrefactor) (c i) (F0 i)) ∧
    (∀ i, F i = cfg.q (F0 i)) ∧
    (∀ i j, CovarR r gradients gradients i j (S0 i j)) ∧
    if cfg.diagonalShift > 1e-10 then
      ∃ t : Fin (n + 1) → ℂ, (∀ i, RMulR r cfg.diagonalShift (cfg.q (S0 i i)) (t i)) ∧
        ∀ i j, CAddR r (cfg.q (S0 i j)) (if i = j then t i else 0) (S i j)
    else ∀ i j, S i j = cfg.q (S0 i j)

end JVMC
