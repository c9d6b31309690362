import Mathlib.Algebra.Order.Round
import Mathlib.Algebra.Order.Archimedean.Real.Basic
import Mathlib.Data.Int.Log
import Mathlib.Data.Complex.Basic
import Mathlib.Tactic.Linarith
import Mathlib.Tactic.Positivity
import Mathlib.Tactic.FieldSimp
import Mathlib.Tactic.Ring
import Mathlib.Tactic.NormNum
import Verif.Model.Mpi

/-!
# Model of reductions with rounding errors

`global_sum`, `global_mean`, `global_variance` (`jVMC/mpi_wrapper.py:114-217`) and the normalisation of weights
(`jVMC/sampler.py:222-223, 482-484, 513-516`) in floating point arithmetic. Every operation is followed by a rounding, and
neither XLA nor MPI fixes the order in which numbers are added; so the results are relations: all values that some order of
the additions gives. Fused multiply-add instructions, which XLA may use, skip the rounding of a product. Simplification:
no overflow, and no underflow of products (see `FloatRange` for these).
-/

namespace JVMC

/-- Rounding of results to floating point numbers: any function with a relative error of at most `u`.
(global_defs.py:3-6: the code uses double precision throughout, see `Rounding.double`) -/
structure Rounding where
  rnd : ℝ → ℝ
  u : ℝ
  u_nonneg : 0 ≤ u
  u_lt : u < 1
  err : ∀ x, |rnd x - x| ≤ u * |x|

/-- Rounding to the nearest number with 53 significant bits. (global_defs.py:3-6: `tReal = np.float64`) -/
noncomputable def roundDouble (x : ℝ) : ℝ :=
  (2 : ℝ) ^ (Int.log 2 |x| - 52) * (round (x / (2 : ℝ) ^ (Int.log 2 |x| - 52)) : ℝ)

/-- The error of `roundDouble`. (global_defs.py:3-6) -/
theorem roundDouble_err (x : ℝ) : |roundDouble x - x| ≤ (2 : ℝ) ^ (-53 : ℤ) * |x| := by
  unfold roundDouble
  rcases eq_or_ne x 0 with rfl | hx
  · simp
  · have hp : (0 : ℝ) < 2 ^ (Int.log 2 |x| - 52) := zpow_pos (by norm_num) _
    set e : ℤ := Int.log 2 |x| - 52 with he
    have h1 := abs_sub_round (x / (2 : ℝ) ^ e)
    have h2 : ((2 : ℕ) : ℝ) ^ Int.log 2 |x| ≤ |x| := Int.zpow_log_le_self (by norm_num) (abs_pos.mpr hx)
    have h3 : (2 : ℝ) ^ e * (round (x / (2 : ℝ) ^ e) : ℝ) - x = -((2 : ℝ) ^ e * (x / (2 : ℝ) ^ e - (round (x / (2 : ℝ) ^ e) : ℝ))) := by
      field_simp
      ring
    rw [h3, abs_neg, abs_mul, abs_of_pos hp]
    have h4 : (2 : ℝ) ^ e = (2 : ℝ) ^ (-53 : ℤ) * 2 * (2 : ℝ) ^ Int.log 2 |x| := by
      rw [he, ← zpow_add_one₀ (by norm_num), ← zpow_add₀ (by norm_num)]
      congr 1
      ring
    rw [h4]
    push_cast at h2
    have h5 : (0 : ℝ) < 2 ^ (-53 : ℤ) := zpow_pos (by norm_num) _
    have h6 : (0 : ℝ) < 2 ^ Int.log 2 |x| := zpow_pos (by norm_num) _
    rw [h4] at h1
    calc _ ≤ (2 : ℝ) ^ (-53 : ℤ) * 2 * (2 : ℝ) ^ Int.log 2 |x| * (1 / 2) :=
          mul_le_mul_of_nonneg_left h1 (by positivity)
      _ = (2 : ℝ) ^ (-53 : ℤ) * (2 : ℝ) ^ Int.log 2 |x| := by ring
      _ ≤ _ := mul_le_mul_of_nonneg_left h2 h5.le

/-- Double precision. (global_defs.py:3-6: `tReal = np.float64`) -/
noncomputable def Rounding.double : Rounding where
  rnd := roundDouble
  u := (2 : ℝ) ^ (-53 : ℤ)
  u_nonneg := (zpow_pos (by norm_num) _).le
  u_lt := by norm_num
  err := roundDouble_err

/-- The result of an operation with exact value `x`: rounded, or not if the instruction is fused with the next one.
(mpi_wrapper.py:44-48) -/
def Rounding.Rd (r : Rounding) (x y : ℝ) : Prop := y = r.rnd x ∨ y = x

/-- The values that `jnp.sum`, `lax.psum`, `jnp.dot` and `comm.Allreduce` can have for the sum of the given numbers: any
order of the additions, every one of them rounded. (mpi_wrapper.py:44-48, 141, 212) -/
inductive Sums (r : Rounding) : List ℝ → ℝ → Prop
  | nil : Sums r [] 0
  | one (x : ℝ) : Sums r [x] x
  | add {l m : List ℝ} {a b : ℝ} : l ≠ [] → m ≠ [] → Sums r l a → Sums r m b → Sums r (l ++ m) (r.rnd (a + b))
  | perm {l m : List ℝ} {a : ℝ} : l.Perm m → Sums r l a → Sums r m a

/-- mpi_wrapper.py:44, 135: `_sum_up_pmapd(data)[0]` on one rank, which needs at least one device. -/
def LocalSumR (r : Rounding) (data : List (List ℝ)) (v : ℝ) : Prop :=
  ∃ ds, data ≠ [] ∧ List.Forall₂ (Sums r) data ds ∧ Sums r ds v

/-- mpi_wrapper.py:114-147, `global_sum`: the values a rank can receive. -/
def GlobalSumR (r : Rounding) (world : List (List (List ℝ))) (v : ℝ) : Prop :=
  ∃ locals, List.Forall₂ (LocalSumR r) world locals ∧ Sums r locals v

/-- mpi_wrapper.py:47, `mean_helper` on one device: `jnp.dot(p, data)`. -/
def DotR (r : Rounding) (dev : List (ℝ × ℝ)) (v : ℝ) : Prop :=
  ∃ ys, List.Forall₂ (fun s y => r.Rd (s.1 * s.2) y) dev ys ∧ Sums r ys v

/-- mpi_wrapper.py:150-174, `global_mean` of real data: the values a rank can receive. -/
def GlobalMeanR (r : Rounding) (world : List (List (List (ℝ × ℝ)))) (v : ℝ) : Prop :=
  ∃ hs, List.Forall₂ (List.Forall₂ fun dev h => ∃ y, DotR r dev y ∧ h = [y]) world hs ∧ GlobalSumR r hs v

/-- mpi_wrapper.py:150-174, `global_mean` of complex data: products of real weights with complex numbers and sums act on the
real and the imaginary parts. -/
def GlobalMeanC (r : Rounding) (world : List (List (List (ℝ × ℂ)))) (v : ℂ) : Prop :=
  GlobalMeanR r (world.map fun rk => rk.map fun dev => dev.map fun s => (s.1, s.2.re)) v.re ∧
  GlobalMeanR r (world.map fun rk => rk.map fun dev => dev.map fun s => (s.1, s.2.im)) v.im

/-- mpi_wrapper.py:46: the contribution of a sample to the real part of `einsum('ij, ij, i -> j', conj(d), d, p)` with
`d = data - mean`. `einsum` may multiply `conj(d)` with `d` first, or `d` with `p`. -/
def SqTermR (r : Rounding) (mean : ℂ) (s : ℝ × ℂ) (y : ℝ) : Prop :=
  ∃ dr di, r.Rd (s.2.re - mean.re) dr ∧ r.Rd (s.2.im - mean.im) di ∧
    ((∃ a b c, r.Rd (dr * dr) a ∧ r.Rd (di * di) b ∧ r.Rd (a + b) c ∧ r.Rd (c * s.1) y) ∨
     (∃ e f a b, r.Rd (dr * s.1) e ∧ r.Rd (di * s.1) f ∧ r.Rd (dr * e) a ∧ r.Rd (di * f) b ∧ r.Rd (a + b) y))

/-- mpi_wrapper.py:203-205: the local contribution of a rank to `global_variance` (real part), with the mean it received. Only
the first device counts. -/
def LocalVarR (r : Rounding) (mean : ℂ) (data : List (List (ℝ × ℂ))) (v : ℝ) : Prop :=
  ∃ dev rest ys, data = dev :: rest ∧ List.Forall₂ (SqTermR r mean) dev ys ∧ Sums r ys v

/-- mpi_wrapper.py:177-217, `global_variance` (real part): the values a rank can receive. Every rank uses its own mean. -/
def GlobalVarR (r : Rounding) (world : List (List (List (ℝ × ℂ)))) (means : List ℂ) (v : ℝ) : Prop :=
  (∀ m ∈ means, GlobalMeanC r world m) ∧ ∃ locals, List.Forall₂ (fun dm x => LocalVarR r dm.2 dm.1 x)
    (world.zip means) locals ∧ world.length = means.length ∧ Sums r locals v

/-- sampler.py:222-223 and 482-484, 513-516: weights divided by their `global_sum`; every rank uses the value it received. -/
def NormalizeR (r : Rounding) (world ps : List (List (List ℝ))) : Prop :=
  List.Forall₂ (fun data p => ∃ nrm, GlobalSumR r world nrm ∧
    List.Forall₂ (List.Forall₂ fun q y => r.Rd (q / nrm) y) data p) world ps

/-- sampler.py:222-223, 513-516 and util.py:148: `global_mean` with the weights of a sampler, i.e. the data of the samples
are weighted with numbers that are divided by their `global_sum`. Samples are pairs of a weight and a datum. -/
def ExpectationR (r : Rounding) (world : List (List (List (ℝ × ℝ)))) (v : ℝ) : Prop :=
  ∃ w, List.Forall₂ (fun data d => ∃ nrm,
      GlobalSumR r (world.map fun rk => rk.map fun dev => dev.map Prod.fst) nrm ∧
      List.Forall₂ (List.Forall₂ fun s t => r.Rd (s.1 / nrm) t.1 ∧ t.2 = s.2) data d) world w ∧
    GlobalMeanR r w v

end JVMC
