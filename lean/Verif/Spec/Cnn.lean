import Verif.Model.Cnn

/-!
# Specification of translations of configurations on periodic lattices
-/

namespace JVMC.Spec

/-- `s'` is the configuration `s` moved by `v`, periodically. -/
def IsTranslate {d : ℕ} (shape v : Fin d → ℕ) (s s' : (Fin d → ℕ) → ℤ) : Prop :=
  ∀ i : Fin d → ℕ, (∀ k, i k < shape k) → s' (fun k => (i k + v k) % shape k) = s i

/-- A field on the lattice (position, channel), continued to all positions: periodically, or by zero. -/
def continued {d : ℕ} {R : Type} [Zero R] (periodic : Bool) (shape : Fin d → ℕ) (x : (Fin d → ℕ) → ℕ → R)
    (p : Fin d → ℤ) (c : ℕ) : R :=
  if periodic then x (fun k => (p k % (shape k : ℤ)).toNat) c
  else if ∀ k, 0 ≤ p k ∧ p k < shape k then x (fun k => (p k).toNat) c else 0

/-- The textbook convolution layer: at output position `i` and channel `c`,
`act (Σ_q Σ_c' x(i * stride + q - offset, c') * K(q, c', c) + b(c))`, with the sum over the filter. -/
def textbookLayer {d : ℕ} {R : Type} [Semiring R] (F strides offset : Fin d → ℕ) (periodic : Bool)
    (shape : Fin d → ℕ) (chan : ℕ) (act : R → R) (K : (Fin d → ℕ) → ℕ → ℕ → R) (b : ℕ → R)
    (x : (Fin d → ℕ) → ℕ → R) (i : Fin d → ℕ) (c : ℕ) : R :=
  act (∑ q ∈ Fintype.piFinset fun k => Finset.range (F k), ∑ c' ∈ Finset.range chan,
    continued periodic shape x (fun k => (i k * strides k + q k : ℤ) - offset k) c' * K q c' c + b c)

/-- The edges of the lattice after a layer, if every multiple of the stride is an output position at which the
filter meets the (continued) lattice. -/
def textbookShape {d : ℕ} (F strides : Fin d → ℕ) (periodic : Bool) (shape : Fin d → ℕ) (k : Fin d) : ℕ :=
  (shape k + (if periodic then 0 else F k - 1) + strides k - 1) / strides k

/-- A network of such layers; the data of a layer are the number of channels, the activation function, filter and
bias. The result is the sum over all positions and channels, divided by the square root of their number. -/
noncomputable def textbookCnn {d : ℕ} (F strides : Fin d → ℕ) (periodic : Bool) :
    List (ℕ × (ℝ → ℝ) × ((Fin d → ℕ) → ℕ → ℕ → ℝ) × (ℕ → ℝ)) → (Fin d → ℕ) → ℕ → ((Fin d → ℕ) → ℕ → ℝ) → ℝ
  | [], shape, chan, x =>
    (∑ i ∈ Fintype.piFinset fun k => Finset.range (shape k), ∑ c ∈ Finset.range chan, x i c) /
      Real.sqrt ((∏ k, shape k) * chan : ℕ)
  | (features, act, K, b) :: layers, shape, chan, x =>
    textbookCnn F strides periodic layers (textbookShape F strides periodic shape) features
      (textbookLayer F strides (fun k => if periodic then 0 else F k - 1) periodic shape chan act K b x)

end JVMC.Spec
