import Mathlib.Data.Complex.Basic
import Mathlib.Analysis.Real.Sqrt
import Mathlib.Data.Fintype.Pi
import Verif.Model.Py
import Verif.Model.Symmetries

/-!
# Model of `jVMC/nets/cnn.py`

Arrays have `d` spatial axes and one axis for the channels; the batch axis, which has length one, is left out.
Entries are exact; activation functions act on every entry.
-/

namespace JVMC

/-- An array: shape of the spatial axes, number of channels, entries.
(`x` in cnn.py:67-80, 135-148) -/
structure NetArr (d : ℕ) (R : Type) where
  shape : Fin d → ℕ
  chan : ℕ
  val : (Fin d → ℕ) → ℕ → R

/-- The positions in an array. (cnn.py:78-80, 146-148) -/
def box {d : ℕ} (shape : Fin d → ℕ) : Finset (Fin d → ℕ) := Fintype.piFinset fun k => Finset.range (shape k)

/-- `jnp.pad(x, pads, 'wrap')` with `pads = (0, f - 1)` on the spatial axes (cnn.py:46-52, 69-70). -/
def padWrap {d : ℕ} {R : Type} (F : Fin d → ℕ) (a : NetArr d R) : NetArr d R :=
  ⟨fun k => a.shape k + (F k - 1), a.chan, fun i => a.val fun k => i k % a.shape k⟩

/-- Padding with zeros: `lo k` entries before and `hi k` after axis `k`. (cnn.py:72) -/
def padZero {d : ℕ} {R : Type} [Zero R] (lo hi : Fin d → ℕ) (a : NetArr d R) : NetArr d R :=
  ⟨fun k => lo k + a.shape k + hi k, a.chan, fun i c =>
    if ∀ k, lo k ≤ i k ∧ i k < lo k + a.shape k then a.val (fun k => i k - lo k) c else 0⟩

/-- Parameters of a convolution. (cnn.py:74-76, 141-143) -/
structure ConvParams (d : ℕ) (R : Type) where
  kernel : (Fin d → ℕ) → ℕ → ℕ → R
  bias : ℕ → R

/-- `nn.Conv(features, kernel_size=F, strides=strides, padding=(0, 0), use_bias=useBias)(x)`.
(cnn.py:74-76) -/
def convValid {d : ℕ} {R : Type} [Semiring R] (F strides : Fin d → ℕ) (features : ℕ) (useBias : Bool)
    (p : ConvParams d R) (a : NetArr d R) : NetArr d R :=
  ⟨fun k => (a.shape k - F k) / strides k + 1, features, fun i c =>
    ∑ q ∈ box F, ∑ c' ∈ Finset.range a.chan, a.val (fun k => i k * strides k + q k) c' * p.kernel q c' c +
      (if useBias then p.bias c else 0)⟩

/-- The number of zeros which `padding="SAME"` adds in total to an axis of length `n`.
(cnn.py:141-143) -/
def sameTotal (n f stride : ℕ) : ℕ := (((((n + stride - 1) / stride : ℕ) : ℤ) - 1) * stride + f - n).toNat

/-- `nn.Conv` with the default padding "SAME". (cnn.py:141-143) -/
def convSame {d : ℕ} {R : Type} [Semiring R] (F strides : Fin d → ℕ) (features : ℕ) (useBias : Bool)
    (p : ConvParams d R) (a : NetArr d R) : NetArr d R :=
  let total := fun k => sameTotal (a.shape k) (F k) (strides k)
  convValid F strides features useBias p (padZero (fun k => total k / 2) (fun k => total k - total k / 2) a)

/-- One entry of `zip(self.channels, activationFunctions, bias)` with the parameters of the layer.
(cnn.py:68, 136) -/
structure Layer (d : ℕ) (R : Type) where
  features : ℕ
  act : R → R
  useBias : Bool
  params : ConvParams d R

/-- cnn.py:54-59, 68: the layers; `actFun[-1]` and `bias[0] = ...` raise for empty lists. -/
def netLayers {d : ℕ} {R : Type} (channels : List ℕ) (actFun : List (R → R)) (bias firstLayerBias : Bool)
    (params : ℕ → ConvParams d R) : Except PyErr (List (Layer d R)) :=
  match channels, actFun.getLast? with
  | [], _ => .error .indexError
  | _, none => .error .indexError
  | _ :: _, some last =>
    let acts := actFun ++ List.replicate (channels.length - actFun.length) last
    .ok ((channels.zip acts).mapIdx fun l x => ⟨x.1, x.2, if l = 0 then firstLayerBias else bias, params l⟩)

/-- The activation function acts on every entry. (cnn.py:74, 141) -/
def NetArr.mapVal {d : ℕ} {R : Type} (f : R → R) (a : NetArr d R) : NetArr d R :=
  { a with val := fun i c => f (a.val i c) }

/-- cnn.py:68-76: a layer of `CNN`. -/
def cnnLayer {d : ℕ} {R : Type} [Semiring R] (F strides : Fin d → ℕ) (periodic : Bool) (x : NetArr d R)
    (l : Layer d R) : NetArr d R :=
  let y := if periodic then padWrap F x else padZero (fun k => F k - 1) (fun k => F k - 1) x
  (convValid F strides l.features l.useBias l.params y).mapVal l.act

/-- cnn.py:136-143: a layer of `CpxCNN`. -/
def cpxCnnLayer {d : ℕ} {R : Type} [Semiring R] (F strides : Fin d → ℕ) (periodic : Bool) (x : NetArr d R)
    (l : Layer d R) : NetArr d R :=
  let y := if periodic then padWrap F x else x
  (convSame F strides l.features l.useBias l.params y).mapVal l.act

/-- cnn.py:67: `2 * x - 1` with one channel. -/
def netInput {d : ℕ} {R : Type} [Ring R] (shape : Fin d → ℕ) (s : (Fin d → ℕ) → ℤ) : NetArr d R :=
  ⟨shape, 1, fun i _ => ((2 * s i - 1 : ℤ) : R)⟩

/-- cnn.py:78-80: the sum over all entries; the norm is the square root of the number of entries. -/
def netSum {d : ℕ} {R : Type} [AddCommMonoid R] (a : NetArr d R) : R :=
  ∑ i ∈ box a.shape, ∑ c ∈ Finset.range a.chan, a.val i c

/-- cnn.py:78: the square of `nrm`. -/
def netSize {d : ℕ} {R : Type} (a : NetArr d R) : ℕ := (∏ k, a.shape k) * a.chan

/-- cnn.py:18-80 `CNN.__call__`. -/
noncomputable def cnn {d : ℕ} (F strides : Fin d → ℕ) (periodic : Bool) (layers : List (Layer d ℝ)) (shape : Fin d → ℕ)
    (s : (Fin d → ℕ) → ℤ) : ℝ :=
  let x := layers.foldl (cnnLayer F strides periodic) (netInput shape s)
  netSum x / Real.sqrt (netSize x)

/-- cnn.py:85-148 `CpxCNN.__call__`. -/
noncomputable def cpxCnn {d : ℕ} (F strides : Fin d → ℕ) (periodic : Bool) (layers : List (Layer d ℂ))
    (shape : Fin d → ℕ) (s : (Fin d → ℕ) → ℤ) : ℂ :=
  let x := layers.foldl (cpxCnnLayer F strides periodic) (netInput shape s)
  netSum x / ((Real.sqrt (netSize x) : ℝ) : ℂ)

/-- cnn.py:153-192 `CpxCNNSym.__call__`, for any inner network: the matrices of the orbit act on the configuration
itself, and the outputs are averaged without factors. -/
noncomputable def cnnSym {n : ℕ} (net : (Fin n → ℤ) → ℂ) (orbit : List (Matrix (Fin n) (Fin n) ℤ)) (s : Fin n → ℤ) : ℂ :=
  ((orbit.map fun o => net (o.mulVec s)).sum) / orbit.length

end JVMC
