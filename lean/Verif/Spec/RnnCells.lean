import Mathlib.Analysis.RCLike.Basic
import Mathlib.Analysis.SpecialFunctions.Log.Basic
import Mathlib.Analysis.Complex.Basic

/-!
# Recurrent networks, written as recursions

Hidden states as functions of layer and time (or layer, row and column), without scans.
-/

namespace JVMC.Spec

variable {K : Type} [RCLike K] {D H : ℕ}

/-- What came before time `t`. -/
def before {A : Type} (zero : A) (f : ℕ → A) (t : ℕ) : A := if t = 0 then zero else f (t - 1)

/-- `v W` for a row vector. -/
def rowTimes (v : Fin D → K) (W : Fin D → Fin H → K) (j : Fin H) : K := ∑ i, v i * W i j

/-- A deep vanilla network: the lowest layer sees the local state of the previous site, every other
layer adds its own transformed past to the output of the layer below. -/
structure Vanilla (act : K → K) (win : Fin D → Fin H → K) (w : ℕ → Fin H → Fin H → K) (depth : ℕ)
    (x : ℕ → Fin D → K) (h : ℕ → ℕ → Fin H → K) : Prop where
  input : ∀ t j, h 0 t j = act (rowTimes (before 0 x t) win j)
  layer : ∀ l < depth, ∀ t j,
    h (l + 1) t j = act (rowTimes (before 0 (h (l + 1)) t) (w l) j) + h l t j

/-- Local states as unit vectors; zero beyond the end of the chain. -/
noncomputable def unit {L : ℕ} (s : Fin L → Fin D) (t : ℕ) (i : Fin D) : K :=
  open Classical in if ∃ h : t < L, s ⟨t, h⟩ = i then 1 else 0

/-- The same on a square lattice. -/
noncomputable def unit2 {L : ℕ} (s : Fin L → Fin L → Fin D) (r c : ℕ) (i : Fin D) : K :=
  open Classical in if ∃ (hr : r < L) (hc : c < L), s ⟨r, hr⟩ ⟨c, hc⟩ = i then 1 else 0

/-- The site visited before column `c` in row `r`: rows are traversed alternately to the right and to
the left. -/
def zigzagPrev (L r c : ℕ) : Option ℕ :=
  if r % 2 = 0 then (if c = 0 then none else some (c - 1))
  else if c + 1 = L then none else some (c + 1)

/-- The position of a site on this path. -/
def visited (L r c : ℕ) : ℕ := r * L + if r % 2 = 0 then c else L - 1 - c

/-- The value at the site visited before, in the same row. -/
def besides {A : Type} (zero : A) (L r c : ℕ) (f : ℕ → A) : A := (zigzagPrev L r c).elim zero f

/-- A deep vanilla network on the square lattice: each site sees the site visited before in the same row,
and the site of the same column in the previous row. -/
structure Vanilla2D (act : K → K) (win : Fin (D + D) → Fin H → K) (wH wV : ℕ → Fin H → Fin H → K)
    (depth L : ℕ) (x : ℕ → ℕ → Fin D → K) (h : ℕ → ℕ → ℕ → Fin H → K) : Prop where
  input : ∀ r < L, ∀ c < L, ∀ j, h 0 r c j
    = act (rowTimes (Fin.append (besides 0 L r c (x r)) (before 0 (fun r' => x r' c) r)) win j)
  layer : ∀ l < depth, ∀ r < L, ∀ c < L, ∀ j, h (l + 1) r c j
    = act (rowTimes (besides 0 L r c (h (l + 1) r)) (wH l) j
        + rowTimes (before 0 (fun r' => h (l + 1) r' c) r) (wV l) j) + h l r c j

/-- The logarithm of a conditional amplitude with logits `a` and phases `φ`. -/
noncomputable def condLog {n : ℕ} (κ : ℝ) (a φ : Fin n → ℝ) (j : Fin n) : ℂ :=
  ((κ * (a j - Real.log (∑ k, Real.exp (a k))) : ℝ) : ℂ) + Complex.I * (φ j : ℂ)

/-- Entry `k` of `o W + b`, zero beyond the end. -/
noncomputable def affine {F : ℕ} (W : Fin H → Fin F → ℝ) (b : Fin F → ℝ) (o : Fin H → ℝ) (k : ℕ) : ℝ :=
  if hk : k < F then rowTimes o W ⟨k, hk⟩ + b ⟨k, hk⟩ else 0

/-- The conditional amplitudes of the local states `0, …, n-1`: local state `0` has logit and phase `0`,
the others take logits and phases from the outputs `y`. -/
noncomputable def condAmplitude {n : ℕ} (κ : ℝ) (withPhase : Bool) (y : ℕ → ℝ) (j : Fin n) : ℂ :=
  condLog κ (fun k => if k.val = 0 then 0 else y (k - 1))
    (fun k => if withPhase = false ∨ k.val = 0 then 0 else y (n - 1 + (k - 1))) j

/-- `1 / (1 + e^-x)`. -/
noncomputable def sigma (x : ℝ) : ℝ := 1 / (1 + Real.exp (-x))

end JVMC.Spec
