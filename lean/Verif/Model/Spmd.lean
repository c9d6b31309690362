import Mathlib.Algebra.Order.Archimedean.Real.Basic
import Mathlib.Algebra.Order.Floor.Semiring
import Mathlib.Data.Complex.BigOperators
import Verif.Model.Mpi

/-!
# Ranks that run on their own

The other modules describe a collective operation by what it does to the data of all ranks at once.
Here every rank is a program of its own. The ranks are scheduled in an arbitrary order and only
interact in MPI's collective operations: `Allreduce` (mpi_wrapper.py:141, 212), `allgather`
(mpi_wrapper.py:289) and `bcast`/`Bcast` (mpi_wrapper.py:267-273, output_manager.py:146-150).
-/

namespace JVMC

/-- The content of a communication buffer, padded by zeros; `none`: it contains NaNs.
(mpi_wrapper.py:135-141) -/
abbrev Wired := Option (ℕ → ℂ)

/-- A collective operation, as MPI identifies it: the operation, for `Allreduce` the length of the
buffer, for broadcasts the root. (mpi_wrapper.py:141, 212, 267-273, 289) -/
inductive Coll where
  | allreduce (len : ℕ)
  | allgather
  | bcast (root : ℕ)
  deriving DecidableEq

/-- What one rank executes: it returns, raises, or calls a collective operation `c`, to which it
contributes `send` and with the result of which it continues. (mpi_wrapper.py:114-292) -/
inductive Prog (α : Type) : Type where
  | ret (a : α)
  | raise (e : PyErr)
  | coll (c : Coll) (send : List Wired) (k : List (List Wired) → Prog α)

/-- One program after the other; an exception skips the second.
(Python's sequencing, e.g. mpi_wrapper.py:201-203) -/
def Prog.bind {α β : Type} : Prog α → (α → Prog β) → Prog β
  | .ret a, f => f a
  | .raise e, _ => .raise e
  | .coll c send k, f => .coll c send fun x => (k x).bind f

instance : Monad Prog where
  pure := .ret
  bind := Prog.bind

/-- Local code that may raise. (e.g. mpi_wrapper.py:135) -/
def Prog.lift {α : Type} : Except PyErr α → Prog α
  | .ok a => .ret a
  | .error e => .raise e

/-- What a collective operation returns on every rank, given the contributions of all ranks:
the sum, all contributions in rank order, or the contribution of the root.
(mpi_wrapper.py:141, 212, 267-273, 289) -/
noncomputable def Coll.combine {n : ℕ} (c : Coll) (sends : Fin n → List Wired) : List (List Wired) :=
  match c with
  | .allreduce _ =>
    open Classical in
    if ∀ r, ((sends r).headD none).isSome then
      [[some (∑ r, ((sends r).headD none).getD 0)]]
    else [[none]]
  | .allgather => List.ofFn sends
  | .bcast root => if h : root < n then [sends ⟨root, h⟩] else []

/-! ## Schedules -/

/-- A rank: the rest of its program, all it has contributed to collective operations so far, and
whether it is waiting inside of one (to which it has contributed already).
(mpi_wrapper.py:114-292) -/
structure RankSt (α : Type) where
  prog : Prog α
  hist : List (Coll × List Wired)
  waiting : Bool

/-- All ranks. (mpi_wrapper.py:114-292) -/
abbrev SpmdSt (n : ℕ) (α : Type) := Fin n → RankSt α

/-- The ranks at the start. -/
def spmdInit {n : ℕ} {α : Type} (p : Fin n → Prog α) : SpmdSt n α := fun r => ⟨p r, [], false⟩

/-- Whether a rank waiting in its `i`-th collective operation `c` can leave it: `Allreduce` and
`allgather` need the contributions of all ranks, a broadcast that of the root. MPI matches the
`i`-th calls of all ranks; calls of different operations do not match, the ranks then wait forever.
(mpi_wrapper.py:141, 212, 267-273, 289) -/
def Coll.ready {n : ℕ} {α : Type} (s : SpmdSt n α) (i : ℕ) (c : Coll) : Prop :=
  match c with
  | .bcast root => ∃ r : Fin n, r.val = root ∧ (((s r).hist[i]?).map Prod.fst) = some c
  | _ => ∀ r : Fin n, (((s r).hist[i]?).map Prod.fst) = some c

/-- The contributions to the `i`-th collective operation. (mpi_wrapper.py:141, 212, 267-273, 289) -/
def contributions {n : ℕ} {α : Type} (s : SpmdSt n α) (i : ℕ) : Fin n → List Wired :=
  fun r => (((s r).hist[i]?).map Prod.snd).getD []

/-- One step of rank `r`: it enters a collective operation or leaves it; `none` if it has ended or
cannot leave yet. (mpi_wrapper.py:141, 212, 267-273, 289) -/
noncomputable def spmdStep {n : ℕ} {α : Type} (r : Fin n) (s : SpmdSt n α) : Option (SpmdSt n α) :=
  match (s r).prog with
  | .ret _ => none
  | .raise _ => none
  | .coll c send k =>
    if (s r).waiting then
      open Classical in
      if Coll.ready s ((s r).hist.length - 1) c then
        some (Function.update s r ⟨k (c.combine (contributions s ((s r).hist.length - 1))),
          (s r).hist, false⟩)
      else none
    else some (Function.update s r ⟨.coll c send k, (s r).hist ++ [(c, send)], true⟩)

/-- Run a schedule; a scheduled rank that cannot move is skipped. -/
noncomputable def spmdRun {n : ℕ} {α : Type} (s : SpmdSt n α) : List (Fin n) → SpmdSt n α
  | [] => s
  | r :: rs => spmdRun ((spmdStep r s).getD s) rs

/-- What a rank has returned or raised, if it has ended. -/
def Prog.outcome {α : Type} : Prog α → Option (Except PyErr α)
  | .ret a => some (.ok a)
  | .raise e => some (.error e)
  | .coll _ _ _ => none

/-! ## Buffers -/

/-- How an array is laid out in a buffer (row-major; real numbers as complex numbers without
imaginary part). (mpi_wrapper.py:135-141) -/
class MpiBuf (A : Type) [AddCommMonoid A] where
  len : ℕ
  enc : A → ℕ → ℂ
  dec : (ℕ → ℂ) → A

instance : MpiBuf ℂ := ⟨1, fun z j => if j = 0 then z else 0, fun b => b 0⟩

instance : MpiBuf ℝ := ⟨1, fun x j => if j = 0 then (x : ℂ) else 0, fun b => (b 0).re⟩

noncomputable instance : MpiBuf ℕ :=
  ⟨1, fun x j => if j = 0 then (x : ℂ) else 0, fun b => ⌊(b 0).re⌋₊⟩

instance {m : ℕ} {A : Type} [AddCommMonoid A] [MpiBuf A] : MpiBuf (Fin m → A) :=
  ⟨m * MpiBuf.len A,
   fun f j => if h : j / MpiBuf.len A < m then MpiBuf.enc (f ⟨j / MpiBuf.len A, h⟩) (j % MpiBuf.len A) else 0,
   fun b i => MpiBuf.dec fun j => if j < MpiBuf.len A then b (i * MpiBuf.len A + j) else 0⟩

instance {m k : ℕ} {A : Type} [AddCommMonoid A] [MpiBuf A] : MpiBuf (Fin m × Fin k → A) :=
  ⟨m * (k * MpiBuf.len A),
   fun f => MpiBuf.enc fun i : Fin m => fun j : Fin k => f (i, j),
   fun b ij => (MpiBuf.dec b : Fin m → Fin k → A) ij.1 ij.2⟩

/-- `comm.Allreduce(x, res, op=MPI.SUM)` for data that may be NaN (`none`).
(mpi_wrapper.py:138-141, 206-212) -/
def allreduceNan {A : Type} [AddCommMonoid A] [MpiBuf A] (x : Option A) : Prog (Option A) :=
  .coll (.allreduce (MpiBuf.len A)) [x.map MpiBuf.enc] fun res =>
    .ret (((res.headD []).headD none).map MpiBuf.dec)

/-- `comm.Allreduce(x, res, op=MPI.SUM)`. (mpi_wrapper.py:138-141, 206-212) -/
def allreduceR {A : Type} [AddCommMonoid A] [MpiBuf A] (x : A) : Prog A :=
  .coll (.allreduce (MpiBuf.len A)) [some (MpiBuf.enc x)] fun res =>
    .ret (MpiBuf.dec (((res.headD []).headD none).getD 0))

/-- `comm.allgather` of the rows of an array. (mpi_wrapper.py:289) -/
def allgatherR {A : Type} [AddCommMonoid A] [MpiBuf A] (x : List A) : Prog (List (List A)) :=
  .coll .allgather (x.map fun a => some (MpiBuf.enc a)) fun res =>
    .ret (res.map fun l => l.map fun a => MpiBuf.dec (a.getD 0))

/-- `comm.bcast` / `comm.Bcast` with the given root. (mpi_wrapper.py:267-273, output_manager.py:146) -/
def bcastR {A : Type} [AddCommMonoid A] [MpiBuf A] (root : ℕ) (x : List A) : Prog (List A) :=
  .coll (.bcast root) (x.map fun a => some (MpiBuf.enc a)) fun res =>
    .ret ((res.headD []).map fun a => MpiBuf.dec (a.getD 0))

end JVMC
