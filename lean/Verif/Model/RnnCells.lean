import Mathlib.Analysis.RCLike.Basic
import Mathlib.Analysis.SpecialFunctions.Trigonometric.Basic
import Mathlib.Analysis.Complex.Trigonometric
import Verif.Model.Rnn
import Verif.Model.Py

/-!
# Model of the cells, the cell stacks and `setup` of `rnn1d_general.py` and `rnn2d_general.py`

Arrays of shape `(depth, rows, hiddenSize)` are lists of layers, which are lists of rows. `nn.GRUCell`
and `nn.OptimizedLSTMCell` are those of flax, with the default gate (sigmoid) and activation (tanh).
-/

namespace JVMC

variable {K : Type} [RCLike K] {D H : ℕ}

/-- `nn.Dense` without bias on a vector: `x @ kernel`.
(rnn1d_general.py:45-47, 218-223, rnn2d_general.py:48-50, 297-310) -/
def denseRow (W : Fin D → Fin H → K) (x : Fin D → K) : Fin H → K := fun j => ∑ i, x i * W i j

/-- The rows of the hidden state of one layer. (rnn1d_general.py:116-124) -/
abbrev Rows (K : Type) (H : ℕ) := List (Fin H → K)

/-- A cell of the chain: `(carry, state) -> (new_carry, output)`. (rnn1d_general.py:52) -/
abbrev CellFn (K : Type) (H : ℕ) := Rows K H → (Fin H → K) → Rows K H × (Fin H → K)

/-- A cell of the square lattice: `(carryH, carryV, state) -> (new_carry, output)`.
(rnn2d_general.py:56) -/
abbrev CellFn2 (K : Type) (H : ℕ) := Rows K H → Rows K H → (Fin H → K) → Rows K H × (Fin H → K)

/-! ## Stacks -/

/-- rnn1d_general.py:51-53: the loop over the layers. -/
def stackLoop : ℕ → List (Rows K H × CellFn K H) → List (Rows K H) → (Fin H → K) →
    List (Rows K H) × (Fin H → K)
  | _, [], newCarry, newR => (newCarry, newR)
  | j, (c, cell) :: rest, newCarry, newR =>
    let r := cell c newR
    stackLoop (j + 1) rest (newCarry.set j r.1) r.2

/-- rnn1d_general.py:42-54 `RNNCellStack.__call__`. The input has `D` entries. -/
def stackCall (act : K → K) (win : Fin D → Fin H → K) (cells : List (CellFn K H))
    (carry : List (Rows K H)) (newR : ℕ → ℝ) : List (Rows K H) × (Fin H → K) :=
  let newCarry := carry.map fun rows => rows.map fun _ => (0 : Fin H → K)
  let newR : Fin H → K := denseRow win fun i => (newR i : K)
  let newR : Fin H → K := fun j => act (newR j)
  stackLoop 0 (carry.zip cells) newCarry newR

/-- rnn2d_general.py:53-59: the loop over the layers. -/
def stackLoop2 : ℕ → List (Rows K H × Rows K H × CellFn2 K H) → List (Rows K H) → (Fin H → K) →
    List (Rows K H) × (Fin H → K)
  | _, [], newCarry, newR => (newCarry, newR)
  | j, (cH, cV, cell) :: rest, newCarry, newR =>
    let r := cell cH cV newR
    stackLoop2 (j + 1) rest (newCarry.set j r.1) r.2

/-- rnn2d_general.py:42-60 `RNNCellStack.__call__`. The inputs have `D` entries each. -/
def stackCall2 (act : K → K) (win : Fin (D + D) → Fin H → K) (cells : List (CellFn2 K H))
    (carryH carryV : List (Rows K H)) (xH xV : ℕ → ℝ) : List (Rows K H) × (Fin H → K) :=
  let newCarry := carryH.map fun rows => rows.map fun _ => (0 : Fin H → K)
  let newR : Fin (D + D) → K := Fin.append (fun i : Fin D => (xH i : K)) fun i : Fin D => (xV i : K)
  let newR : Fin H → K := denseRow win newR
  let newR : Fin H → K := fun j => act (newR j)
  stackLoop2 0 (carryH.zip (carryV.zip cells)) newCarry newR

/-! ## Cells -/

/-- rnn1d_general.py:216-229 `RNNCell.__call__`. -/
def rnnCell (act : K → K) (w : Fin H → Fin H → K) : CellFn K H := fun carry state =>
  let newCarry : Rows K H := [fun j => act (denseRow w (carry.getD 0 0) j) + state j]
  (newCarry, newCarry.getD 0 0)

/-- rnn2d_general.py:293-314 `RNNCell.__call__`. -/
def rnnCell2 (act : K → K) (wH wV : Fin H → Fin H → K) : CellFn2 K H := fun carryH carryV state =>
  let newCarry : Rows K H :=
    [fun j => act (denseRow wH (carryH.getD 0 0) j + denseRow wV (carryV.getD 0 0) j) + state j]
  (newCarry, newCarry.getD 0 0)

/-- The functions inside of the gated cells. (rnn1d_general.py:186, 195) -/
structure GateFns (K : Type) where
  sigmoid : K → K
  tanh : K → K

/-- For real parameters. (rnn1d_general.py:186, 195) -/
noncomputable def realGates : GateFns ℝ := ⟨fun x => 1 / (1 + Real.exp (-x)), Real.tanh⟩

/-- For complex parameters. (rnn1d_general.py:186, 195) -/
noncomputable def cpxGates : GateFns ℂ := ⟨fun x => 1 / (1 + Complex.exp (-x)), Complex.tanh⟩

/-- The parameters of `nn.GRUCell`. (rnn1d_general.py:186) -/
structure GruParams (K : Type) (H : ℕ) where
  (ir iz inn hr hz hn : Fin H → Fin H → K)
  (bir biz bin bhn : Fin H → K)

/-- `nn.GRUCell` on one row. (rnn1d_general.py:186) -/
def gru (g : GateFns K) (p : GruParams K H) (h x : Fin H → K) : Fin H → K := fun j =>
  let r := g.sigmoid (denseRow p.ir x j + p.bir j + denseRow p.hr h j)
  let z := g.sigmoid (denseRow p.iz x j + p.biz j + denseRow p.hz h j)
  let n := g.tanh (denseRow p.inn x j + p.bin j + r * (denseRow p.hn h j + p.bhn j))
  (1 - z) * n + z * h j

/-- rnn1d_general.py:180-187 `GRUCell.__call__`; broadcasting over the rows of the carry. -/
def gruCell (g : GateFns K) (p : GruParams K H) : CellFn K H := fun carry state =>
  let newCarry := carry.map fun row => gru g p row state
  (newCarry, newCarry.getD 0 0)

/-- The parameters of `nn.OptimizedLSTMCell`. (rnn1d_general.py:195) -/
structure LstmParams (K : Type) (H : ℕ) where
  (ii iff ig io hi hf hg ho : Fin H → Fin H → K)
  (bi bf bg bo : Fin H → K)

/-- `nn.OptimizedLSTMCell`: the new `c` and `h`. (rnn1d_general.py:195) -/
def lstm (g : GateFns K) (p : LstmParams K H) (c h x : Fin H → K) : (Fin H → K) × (Fin H → K) :=
  let i : Fin H → K := fun j => g.sigmoid (denseRow p.ii x j + (denseRow p.hi h j + p.bi j))
  let f : Fin H → K := fun j => g.sigmoid (denseRow p.iff x j + (denseRow p.hf h j + p.bf j))
  let gg : Fin H → K := fun j => g.tanh (denseRow p.ig x j + (denseRow p.hg h j + p.bg j))
  let o : Fin H → K := fun j => g.sigmoid (denseRow p.io x j + (denseRow p.ho h j + p.bo j))
  let newC : Fin H → K := fun j => f j * c j + i j * gg j
  (newC, fun j => o j * g.tanh (newC j))

/-- rnn1d_general.py:190-196 `LSTMCell.__call__`; `c, h = carry` takes the two rows. -/
def lstmCell (g : GateFns K) (p : LstmParams K H) : CellFn K H := fun carry state =>
  let r := lstm g p (carry.getD 0 0) (carry.getD 1 0) state
  ([r.1, r.2], r.2)

/-- rnn2d_general.py:258-272 `LSTMCell.__call__`: both rows of both carries go through dense layers. -/
def lstmCell2 (g : GateFns K) (wH : Fin H → Fin H → K) (bH : Fin H → K) (wV : Fin H → Fin H → K)
    (p : LstmParams K H) : CellFn2 K H := fun carryH carryV state =>
  let carry := List.zipWith (fun a b => fun j => denseRow wH a j + bH j + denseRow wV b j) carryH carryV
  let r := lstm g p (carry.getD 0 0) (carry.getD 1 0) state
  ([r.1, r.2], r.2)

/-! ## Setup -/

/-- The argument `cell`: a name, or cells with an initial carry. (rnn1d_general.py:102) -/
inductive CellArg (Cell Carry : Type) where
  | name (s : String)
  | custom (cells : List Cell) (zeroCarry : Carry)

/-- The parameters of the networks. (rnn1d_general.py:113-134, rnn2d_general.py:124-145) -/
structure RnnWeights (K : Type) (D H : ℕ) where
  win : Fin D → Fin H → K
  rnn : ℕ → Fin H → Fin H → K
  gru : ℕ → GruParams K H
  lstm : ℕ → LstmParams K H

/-- rnn1d_general.py:104-129 of `setup`: cells and initial carry. The two expressions
`ValueError(...)` have no effect; with an unknown name `self.cells` is never assigned, so that reading
it fails. -/
def setupCells1D (g : GateFns K) (act : K → K) (w : RnnWeights K D H) (depth : ℕ)
    (cell : CellArg (CellFn K H) (List (Rows K H))) :
    Except PyErr (List (CellFn K H) × List (Rows K H)) :=
  match cell with
  | .name s =>
    if s = "RNN" then
      .ok ((List.range depth).map fun l => rnnCell act (w.rnn l), List.replicate depth (List.replicate 1 0))
    else if s = "LSTM" then
      .ok ((List.range depth).map fun l => lstmCell g (w.lstm l),
        List.replicate depth (List.replicate 2 0))
    else if s = "GRU" then
      .ok ((List.range depth).map fun l => gruCell g (w.gru l), List.replicate depth (List.replicate 1 0))
    else .error .attributeError
  | .custom cells zeroCarry => .ok (cells, zeroCarry)

/-- `RNN1DGeneral` with a head. (rnn1d_general.py:104-134) -/
def setupRnn1D (g : GateFns K) (act : K → K) (w : RnnWeights K D H) (depth : ℕ)
    (cell : CellArg (CellFn K H) (List (Rows K H))) (head : RnnHead (Fin H → K)) :
    Except PyErr (Rnn1D (List (Rows K H)) (Fin H → K)) := do
  let c ← setupCells1D g act w depth cell
  .ok ⟨head, stackCall act w.win c.1, c.2⟩

/-- The parameters of the networks on the square lattice. (rnn2d_general.py:124-145) -/
structure RnnWeights2 (K : Type) (D H : ℕ) where
  win : Fin (D + D) → Fin H → K
  (rnnH rnnV : ℕ → Fin H → Fin H → K)
  (lstmH lstmV : ℕ → Fin H → Fin H → K)
  lstmB : ℕ → Fin H → K
  lstm : ℕ → LstmParams K H

/-- rnn2d_general.py:115-138 of `setup`: cells and the initial carry of each column. `GRUCell()` lacks an
argument. `[GRUCell() for _ in range(0)]` is empty. -/
def setupCells2D (g : GateFns K) (act : K → K) (w : RnnWeights2 K D H) (depth : ℕ)
    (cell : CellArg (CellFn2 K H) (ℕ → List (Rows K H))) :
    Except PyErr (List (CellFn2 K H) × (ℕ → List (Rows K H))) :=
  match cell with
  | .name s =>
    if s = "RNN" then
      .ok ((List.range depth).map fun l => rnnCell2 act (w.rnnH l) (w.rnnV l),
        fun _ => List.replicate depth (List.replicate 1 0))
    else if s = "LSTM" then
      .ok ((List.range depth).map fun l => lstmCell2 g (w.lstmH l) (w.lstmB l) (w.lstmV l) (w.lstm l),
        fun _ => List.replicate depth (List.replicate 2 0))
    else if s = "GRU" then
      if depth = 0 then .ok ([], fun _ => []) else .error .typeError
    else .error .attributeError
  | .custom cells zeroCarry => .ok (cells, zeroCarry)

/-- `RNN2DGeneral` with a head. (rnn2d_general.py:108-145) -/
def setupRnn2D (g : GateFns K) (act : K → K) (w : RnnWeights2 K D H) (depth : ℕ)
    (cell : CellArg (CellFn2 K H) (ℕ → List (Rows K H))) (head : RnnHead (Fin H → K)) :
    Except PyErr (Rnn2D (List (Rows K H)) (Fin H → K)) := do
  let c ← setupCells2D g act w depth cell
  .ok ⟨head, stackCall2 act w.win c.1, c.2⟩

/-- `self.outputDense` for real parameters: `(inputDim-1) * (2 - realValuedOutput)` features.
(rnn1d_general.py:132-134) -/
def outputDense {F : ℕ} (w : Fin H → Fin F → K) (b : Fin F → K) (o : Fin H → K) : ℕ → K := fun k =>
  if hk : k < F then denseRow w o ⟨k, hk⟩ + b ⟨k, hk⟩ else 0

end JVMC
