import Verif.Model.SiteIndex
import Verif.Lemmas.BranchFree

/-! # Helper lemmas for `Model/SiteIndex` -/

namespace JVMC

open Spec

variable {N d : ℕ}

/-- The operator on a site of the lattice that acts like an operator with an arbitrary index. -/
def toLocal (N : ℕ) [NeZero N] (o : LocalOpZ d) : LocalOp N d :=
  ⟨readIdx N o.idx, if (writeIdx N o.idx).isSome then o.map else id, o.matEls, o.diag, o.fermionic⟩

theorem writeIdx_eq (N : ℕ) [NeZero N] (i : ℤ) (j : Fin N) (h : writeIdx N i = some j) : j = readIdx N i := by
  unfold writeIdx at h
  split at h
  · next hb =>
    simp only [Option.some.injEq] at h
    subst h
    apply Fin.ext
    simp only [readIdx]
    omega
  · cases h

theorem applyFunZ_toLocal [NeZero N] (mask : Fin N → Fin N → ℤ) (c : Config N d × ℂ) (o : LocalOpZ d) :
    applyFunZ mask c o = applyFun mask c (toLocal N o) := by
  unfold applyFunZ applyFun toLocal
  cases h : writeIdx N o.idx with
  | none => simp
  | some j =>
    have := writeIdx_eq N o.idx j h
    subst this
    simp

theorem toLocal_id [NeZero N] : toLocal N (⟨0, id, fun _ => 1, true, false⟩ : LocalOpZ d) = opId 0 := by
  have : readIdx N 0 = 0 := Fin.ext (by simp [readIdx, normIdx])
  simp [toLocal, opId, this]

theorem compileStrZ_toLocal [NeZero N] (m : ℕ) (ops : List (LocalOpZ d)) :
    (compileStrZ m ops).map (toLocal N) = compileStr m (ops.map (toLocal N)) := by
  unfold compileStrZ compileStr
  rw [List.map_map]
  apply List.map_congr_left
  intro k _
  simp only [Function.comp, List.length_map]
  split
  · simp
  · exact toLocal_id

theorem foldl_toLocal [NeZero N] (mask : Fin N → Fin N → ℤ) (l : List (LocalOpZ d)) (c : Config N d × ℂ) :
    l.foldl (applyFunZ mask) c = (l.map (toLocal N)).foldl (applyFun mask) c := by
  induction l generalizing c with
  | nil => rfl
  | cons o l ih => simp only [List.foldl_cons, List.map_cons, applyFunZ_toLocal, ih]

theorem maxOpStrLengthZ_toLocal [NeZero N] (strs : List (List (LocalOpZ d))) :
    maxOpStrLength (strs.map (List.map (toLocal N))) = maxOpStrLengthZ strs := by
  simp [maxOpStrLength, maxOpStrLengthZ, Function.comp_def]

theorem diagIndicesZ_toLocal [NeZero N] (strs : List (List (LocalOpZ d))) :
    diagIndices (strs.map (List.map (toLocal N))) = diagIndicesZ strs := by
  unfold diagIndices diagIndicesZ
  rw [List.length_map]
  apply List.filter_congr
  intro k hk
  rw [List.mem_range] at hk
  simp only [List.getD_eq_getElem?_getD, List.getElem?_map, List.getElem?_eq_getElem hk, Option.map_some,
    Option.getD_some, List.all_map]
  rfl

theorem kernelZ_toLocal [NeZero N] (strs : List (List (LocalOpZ d))) (pfs : List ℂ) (s : Config N d) :
    kernelZ strs pfs s = branchFreeKernel (strs.map (List.map (toLocal N))) pfs s := by
  unfold kernelZ branchFreeKernel kernelMasked rawSPrimes
  rw [diagIndicesZ_toLocal, maxOpStrLengthZ_toLocal, List.zipWith_map_left]
  simp only [foldl_toLocal, compileStrZ_toLocal]

end JVMC
