import Mathlib.Data.Complex.Basic
import Mathlib.Data.Matrix.Basic
import Mathlib.Logic.Equiv.Fin.Basic
import Mathlib.Data.List.Dedup
import Mathlib.Data.List.Sort

/-!
# Model of `jVMC/util/symmetries.py`

Matrices are indexed by `Fin n`; the entries are integers (`np.int32`), factors are complex numbers.
-/

namespace JVMC

/-- symmetries.py:9-40 `LatticeSymmetry`: the matrices and the factors. -/
structure LatticeSymmetry (n : ℕ) where
  orbit : List (Matrix (Fin n) (Fin n) ℤ)
  factor : List ℂ

/-- symmetries.py:62-69, 156-160: `orbit = np.zeros((n, n)); orbit[idx.ravel(), map.ravel()] = 1`, where
`idx.ravel()` is `0, …, n-1` and `map` is given flattened. -/
def mapMatrix {n : ℕ} (m : Fin n → Fin n) : Matrix (Fin n) (Fin n) ℤ := fun k l => if m k = l then 1 else 0

/-- A list of maps with their factors (the dictionaries `{"maps": …, "factor": …}`).
(symmetries.py:83-109, 174-186) -/
abbrev MapList (n : ℕ) := List ((Fin n → Fin n) × ℂ)

/-! ## One dimension -/

/-- symmetries.py:47-48 `get_1D_index`. -/
def index1D (L : ℕ) : Fin L → Fin L := id

/-- symmetries.py:174, 177-179: `idx` and, if requested, `idx[::-1]`. -/
noncomputable def reflections1D (L : ℕ) (use : Bool) (factor : ℂ) : MapList L :=
  (index1D L, 1) :: if use then [(fun i => index1D L i.rev, factor)] else []

/-- `np.roll(idx, x)[i] = idx[(i - x) % L]`. (symmetries.py:181-186) -/
def roll1D {L : ℕ} {A : Type} (a : Fin L → A) (x : Fin L) : Fin L → A := fun i =>
  a ⟨(i.val + (L - x.val)) % L, Nat.mod_lt _ (Nat.lt_of_le_of_lt (Nat.zero_le _) i.isLt)⟩

/-- symmetries.py:175, 181-186: `idx` and, if requested, `np.roll(idx, x)` for `0 < x < L`. -/
noncomputable def translations1D (L : ℕ) (use : Bool) (factor : ℂ) : MapList L :=
  (index1D L, 1) :: if use then
    ((List.finRange L).filter fun x => x.val ≠ 0).map fun x => (roll1D (index1D L) x, factor ^ x.val) else []

/-- symmetries.py:146-165 `get_orbits_from_maps_1D`: the products in the order of the loops. -/
noncomputable def orbitsFromMaps1D {L : ℕ} (translation reflection : MapList L) :
    List (Matrix (Fin L) (Fin L) ℤ × ℂ) :=
  translation.flatMap fun t => reflection.map fun r => (mapMatrix t.1 * mapMatrix r.1, t.2 * r.2)

/-- symmetries.py:136-139, 212-215: the elements multiplied by `-1` are appended. -/
noncomputable def withSpinflip {n : ℕ} (use : Bool) (factor : ℂ) (os : List (Matrix (Fin n) (Fin n) ℤ × ℂ)) :
    List (Matrix (Fin n) (Fin n) ℤ × ℂ) :=
  if use then os ++ os.map fun o => (-o.1, factor * o.2) else os

/-- `orbit.reshape(-1)`. (symmetries.py:141-143, 217-219) -/
def matRow {n : ℕ} (M : Matrix (Fin n) (Fin n) ℤ) : List ℤ := (List.ofFn fun i => List.ofFn fun j => M i j).flatten

/-- The lexicographic order in which `np.unique(…, axis=0)` sorts rows.
(symmetries.py:141-143, 217-219) -/
def rowLE {n : ℕ} (M N : Matrix (Fin n) (Fin n) ℤ) : Bool := decide (matRow M ≤ matRow N)

/-- symmetries.py:141-143, 217-219: `np.unique(orbits, return_index=True, axis=0)`: every matrix once, sorted by
its rows; the factor is the one of the first occurrence. -/
noncomputable def uniqueOrbit {n : ℕ} (os : List (Matrix (Fin n) (Fin n) ℤ × ℂ)) : LatticeSymmetry n :=
  let u := ((os.map Prod.fst).dedup).mergeSort rowLE
  ⟨u, u.map fun M => (os.map Prod.snd).getD ((os.map Prod.fst).idxOf M) 0⟩

/-- symmetries.py:191-219 `get_orbit_1D`; the booleans say which names are among the arguments. -/
noncomputable def getOrbit1D (L : ℕ) (translation reflection spinflip : Bool)
    (translationFactor reflectionFactor spinflipFactor : ℂ) : LatticeSymmetry L :=
  uniqueOrbit (withSpinflip spinflip spinflipFactor (orbitsFromMaps1D (translations1D L translation translationFactor)
    (reflections1D L reflection reflectionFactor)))

/-! ## Two dimensions -/

/-- symmetries.py:43-44 `get_2D_index`: `np.arange(L**2).reshape((L, L))`. -/
def index2D (L : ℕ) (i j : Fin L) : Fin (L * L) := finProdFinEquiv (i, j)

/-- `a.ravel()` for a two-dimensional array. (symmetries.py:62-69) -/
def ravel2D {L : ℕ} {A : Type} (a : Fin L → Fin L → A) : Fin (L * L) → A := fun k =>
  a (finProdFinEquiv.symm k).1 (finProdFinEquiv.symm k).2

/-- `np.roll(a, (y, x), axis=(0, 1))`. (symmetries.py:103-109) -/
def roll2D {L : ℕ} {A : Type} (a : Fin L → Fin L → A) (y x : Fin L) : Fin L → Fin L → A :=
  roll1D (fun i => roll1D (a i) x) y

/-- symmetries.py:83, 87-93: the identity and, if requested, the rotations `idx[::-1, :].T`, `idx[::-1, ::-1]`,
`idx[:, ::-1].T`. -/
noncomputable def rotations2D (L : ℕ) (use : Bool) (factor : ℂ) : MapList (L * L) :=
  (ravel2D (index2D L), 1) :: if use then
    [(ravel2D fun i j => index2D L j.rev i, factor),
     (ravel2D fun i j => index2D L i.rev j.rev, factor ^ 2),
     (ravel2D fun i j => index2D L j i.rev, factor ^ 3)] else []

/-- symmetries.py:84, 95-101: the identity and, if requested, the reflections `idx[::-1, :]`, `idx[:, ::-1]`,
`idx[::-1, ::-1]`. -/
noncomputable def reflections2D (L : ℕ) (use : Bool) (factor : ℂ) : MapList (L * L) :=
  (ravel2D (index2D L), 1) :: if use then
    [(ravel2D fun i j => index2D L i.rev j, factor),
     (ravel2D fun i j => index2D L i j.rev, factor),
     (ravel2D fun i j => index2D L i.rev j.rev, factor ^ 2)] else []

/-- symmetries.py:85, 103-109: the identity and, if requested, all other translations. -/
noncomputable def translations2D (L : ℕ) (use : Bool) (factor : ℂ) : MapList (L * L) :=
  (ravel2D (index2D L), 1) :: if use then
    (List.finRange L).flatMap fun x => ((List.finRange L).filter fun y => ¬ (x.val = 0 ∧ y.val = 0)).map fun y =>
      (ravel2D (roll2D (index2D L) y x), factor ^ (x.val + y.val)) else []

/-- symmetries.py:51-74 `get_orbits_from_maps_2D`. -/
noncomputable def orbitsFromMaps2D {n : ℕ} (translation rotation reflection : MapList n) :
    List (Matrix (Fin n) (Fin n) ℤ × ℂ) :=
  translation.flatMap fun t => reflection.flatMap fun ref => rotation.map fun rot =>
    (mapMatrix t.1 * mapMatrix ref.1 * mapMatrix rot.1, t.2 * ref.2 * rot.2)

/-- symmetries.py:114-143 `get_orbit_2D_square`. The reflections are passed as the argument "rotation" of
`get_orbits_from_maps_2D`, and the rotations as "reflection" (line 135). -/
noncomputable def getOrbit2D (L : ℕ) (translation reflection rotation spinflip : Bool)
    (translationFactor reflectionFactor rotationFactor spinflipFactor : ℂ) : LatticeSymmetry (L * L) :=
  uniqueOrbit (withSpinflip spinflip spinflipFactor (orbitsFromMaps2D
    (translations2D L translation translationFactor)
    (reflections2D L reflection reflectionFactor)
    (rotations2D L rotation rotationFactor)))

end JVMC
