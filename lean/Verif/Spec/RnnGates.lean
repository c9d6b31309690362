import Verif.Model.RnnCells
import Verif.Spec.RnnCells

/-!
# Gated recurrent networks, written as recursions

The parameters are records of the model; everything else is written out.
-/

namespace JVMC.Spec

variable {D H : ℕ}

/-- The gated recurrent unit: reset gate, update gate, candidate. -/
noncomputable def gruStep (p : GruParams ℝ H) (past x : Fin H → ℝ) (j : Fin H) : ℝ :=
  let reset := sigma (rowTimes x p.ir j + p.bir j + rowTimes past p.hr j)
  let keep := sigma (rowTimes x p.iz j + p.biz j + rowTimes past p.hz j)
  let candidate := Real.tanh (rowTimes x p.inn j + p.bin j + reset * (rowTimes past p.hn j + p.bhn j))
  (1 - keep) * candidate + keep * past j

/-- A deep network of gated recurrent units. -/
structure GruNet (act : ℝ → ℝ) (win : Fin D → Fin H → ℝ) (p : ℕ → GruParams ℝ H) (depth : ℕ)
    (x : ℕ → Fin D → ℝ) (h : ℕ → ℕ → Fin H → ℝ) : Prop where
  input : ∀ t j, h 0 t j = act (rowTimes (before 0 x t) win j)
  layer : ∀ l < depth, ∀ t, h (l + 1) t = gruStep (p l) (before 0 (h (l + 1)) t) (h l t)

/-- The memory of a long short-term memory unit: forget gate times memory plus input gate times
candidate. -/
noncomputable def lstmMemory (p : LstmParams ℝ H) (memory past x : Fin H → ℝ) (j : Fin H) : ℝ :=
  sigma (rowTimes x p.iff j + rowTimes past p.hf j + p.bf j) * memory j
    + sigma (rowTimes x p.ii j + rowTimes past p.hi j + p.bi j)
      * Real.tanh (rowTimes x p.ig j + rowTimes past p.hg j + p.bg j)

/-- The output gate. -/
noncomputable def lstmOut (p : LstmParams ℝ H) (past x : Fin H → ℝ) (j : Fin H) : ℝ :=
  sigma (rowTimes x p.io j + rowTimes past p.ho j + p.bo j)

/-- A deep network of long short-term memory units, with memories `m` and outputs `h`. -/
structure LstmNet (act : ℝ → ℝ) (win : Fin D → Fin H → ℝ) (p : ℕ → LstmParams ℝ H) (depth : ℕ)
    (x : ℕ → Fin D → ℝ) (m h : ℕ → ℕ → Fin H → ℝ) : Prop where
  input : ∀ t j, h 0 t j = act (rowTimes (before 0 x t) win j)
  layer : ∀ l < depth, ∀ t,
    m l t = lstmMemory (p l) (before 0 (m l) t) (before 0 (h (l + 1)) t) (h l t) ∧
    h (l + 1) t = fun j => lstmOut (p l) (before 0 (h (l + 1)) t) (h l t) j * Real.tanh (m l t j)

/-- What a unit on the square lattice takes as its past: both neighbours go through affine maps. -/
noncomputable def mixed (wH : Fin H → Fin H → ℝ) (bH : Fin H → ℝ) (wV : Fin H → Fin H → ℝ) (a b : Fin H → ℝ)
    (j : Fin H) : ℝ := rowTimes a wH j + bH j + rowTimes b wV j

/-- A deep network of long short-term memory units on the square lattice. -/
structure LstmNet2D (act : ℝ → ℝ) (win : Fin (D + D) → Fin H → ℝ) (wH wV : ℕ → Fin H → Fin H → ℝ)
    (bH : ℕ → Fin H → ℝ) (p : ℕ → LstmParams ℝ H) (depth L : ℕ) (x : ℕ → ℕ → Fin D → ℝ)
    (m h : ℕ → ℕ → ℕ → Fin H → ℝ) : Prop where
  input : ∀ r < L, ∀ c < L, ∀ j, h 0 r c j
    = act (rowTimes (Fin.append (besides 0 L r c (x r)) (before 0 (fun r' => x r' c) r)) win j)
  layer : ∀ l < depth, ∀ r < L, ∀ c < L,
    let memory := mixed (wH l) (bH l) (wV l) (besides 0 L r c (m l r)) (before 0 (fun r' => m l r' c) r)
    let past := mixed (wH l) (bH l) (wV l) (besides 0 L r c (h (l + 1) r))
      (before 0 (fun r' => h (l + 1) r' c) r)
    m l r c = lstmMemory (p l) memory past (h l r c) ∧
    h (l + 1) r c = fun j => lstmOut (p l) past (h l r c) j * Real.tanh (m l r c j)

end JVMC.Spec
