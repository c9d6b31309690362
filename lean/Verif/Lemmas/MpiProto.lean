import Mathlib.Tactic.Ring
import Mathlib.Tactic.Linarith
import Mathlib.Algebra.BigOperators.Group.List.Basic
import Verif.Model.Mpi

/-! Invariants of the broadcast protocol and the device bookkeeping (helpers). -/

namespace JVMC

/-- Invariant of `bcast_unknown_size` with a float64 root array. -/
structure BcastInv (commSize root : ℕ) (d : RootData) (s : BcastState) : Prop where
  len : s.pcs.length = commSize
  others : ∀ r, r ≠ root → ∀ pc, s.pcs[r]? = some pc →
    pc = .start ∨ pc = .atDim ∨ pc = .atBuf d.data.length ∨ pc = .done d.data
  rootPc : s.pcs[root]? = some .start ∧ s.wire.dim = none ∧ s.wire.buf = none ∨
    s.pcs[root]? = some .atDim ∧ s.wire.dim = none ∧ s.wire.buf = none ∨
    s.pcs[root]? = some (.atBuf d.data.length) ∧ s.wire.dim = some d.data.length
      ∧ s.wire.buf = none ∨
    s.pcs[root]? = some (.done d.data) ∧ s.wire.dim = some d.data.length
      ∧ s.wire.buf = some d.data

theorem bcastInv_init (commSize root : ℕ) (d : RootData) (h : root < commSize) :
    BcastInv commSize root d (bcastInit commSize) where
  len := by simp [bcastInit]
  others := by
    intro r _ pc hpc
    simp only [bcastInit, List.getElem?_replicate] at hpc
    split_ifs at hpc
    left; exact (Option.some.inj hpc).symm
  rootPc := by
    left
    simp [bcastInit, h]

theorem bcastInv_step (commSize root : ℕ) (d : RootData) (hf : d.isFloat64 = true)
    (r : ℕ) (s s' : BcastState) (inv : BcastInv commSize root d s)
    (hs : bcastStep root d r s = some s') : BcastInv commSize root d s' := by
  by_cases hr : r = root
  · subst hr
    have hlen := inv.len
    have hothers := inv.others
    have hlt : r < s.pcs.length := by
      rcases inv.rootPc with h | h | h | h <;>
        exact (List.getElem?_eq_some_iff.mp h.1).1
    rcases inv.rootPc with ⟨h, hd, hb⟩ | ⟨h, hd, hb⟩ | ⟨h, hd, hb⟩ | ⟨h, hd, hb⟩
    all_goals
      simp only [bcastStep, h, hf, Bool.true_eq_false, and_false, if_false, if_true, reduceCtorEq]
        at hs
    · obtain rfl := Option.some.inj hs
      refine ⟨by simpa using hlen, ?_, ?_⟩
      · intro r' hr' pc hpc
        rw [List.getElem?_set_ne (Ne.symm hr')] at hpc
        exact hothers r' hr' pc hpc
      · right; left; simp [hlt, hd, hb]
    · obtain rfl := Option.some.inj hs
      refine ⟨by simpa using hlen, ?_, ?_⟩
      · intro r' hr' pc hpc
        rw [List.getElem?_set_ne (Ne.symm hr')] at hpc
        exact hothers r' hr' pc hpc
      · right; right; left; simp [hlt, hb]
    · obtain rfl := Option.some.inj hs
      refine ⟨by simpa using hlen, ?_, ?_⟩
      · intro r' hr' pc hpc
        rw [List.getElem?_set_ne (Ne.symm hr')] at hpc
        exact hothers r' hr' pc hpc
      · right; right; right; simp [hlt, hd]
  · have hlen := inv.len
    have hothers := inv.others
    have key : ∀ pc', (pc' = .start ∨ pc' = .atDim ∨ pc' = .atBuf d.data.length
        ∨ pc' = .done d.data) → r < s.pcs.length →
        BcastInv commSize root d { s with pcs := s.pcs.set r pc' } := by
      intro pc' hpc' hlt
      refine ⟨by simpa using hlen, ?_, ?_⟩
      · intro r' hr' pc hpc
        by_cases hrr : r' = r
        · subst hrr
          simp only [List.getElem?_set_self hlt, Option.some.injEq] at hpc
          subst hpc; exact hpc'
        · rw [List.getElem?_set_ne (fun h => hrr h.symm)] at hpc
          exact hothers r' hr' pc hpc
      · simp only [List.getElem?_set_ne hr]
        exact inv.rootPc
    cases hpc : s.pcs[r]? with
    | none => simp [bcastStep, hpc] at hs
    | some pc =>
      have hlt : r < s.pcs.length := (List.getElem?_eq_some_iff.mp hpc).1
      rcases hothers r hr pc hpc with rfl | rfl | rfl | rfl
      · simp only [bcastStep, hpc, hr, false_and, if_false] at hs
        obtain rfl := Option.some.inj hs
        exact key _ (by simp) hlt
      · simp only [bcastStep, hpc, hr, if_false] at hs
        rcases inv.rootPc with ⟨_, hd, _⟩ | ⟨_, hd, _⟩ | ⟨_, hd, _⟩ | ⟨_, hd, _⟩ <;>
          rw [hd] at hs <;> simp at hs
        all_goals
          subst hs
          exact key _ (by simp) hlt
      · simp only [bcastStep, hpc, hr, if_false] at hs
        rcases inv.rootPc with ⟨_, _, hd⟩ | ⟨_, _, hd⟩ | ⟨_, _, hd⟩ | ⟨_, _, hd⟩ <;>
          rw [hd] at hs <;> simp at hs
        subst hs
        exact key _ (by simp) hlt
      · simp [bcastStep, hpc] at hs

theorem bcastInv_run (commSize root : ℕ) (d : RootData) (hf : d.isFloat64 = true)
    (sched : List ℕ) (s : BcastState) (inv : BcastInv commSize root d s) :
    BcastInv commSize root d (bcastRun root d s sched) := by
  induction sched generalizing s with
  | nil => exact inv
  | cons r rs ih =>
    apply ih
    cases h : bcastStep root d r s with
    | none => simpa using inv
    | some s' => simpa using bcastInv_step commSize root d hf r s s' inv h

/-- Remaining steps of a rank. -/
def BcastPc.rem : BcastPc → ℕ
  | .start => 3
  | .atDim => 2
  | .atBuf _ => 1
  | .done _ => 0
  | .failed => 0

theorem rem_set_lt (l : List BcastPc) (r : ℕ) (pc pc' : BcastPc) (h : l[r]? = some pc)
    (hlt : pc'.rem < pc.rem) : ((l.set r pc').map BcastPc.rem).sum < (l.map BcastPc.rem).sum := by
  induction l generalizing r with
  | nil => simp at h
  | cons a l ih =>
    cases r with
    | zero =>
      simp only [List.getElem?_cons_zero, Option.some.injEq] at h
      subst h
      simp [hlt]
    | succ r =>
      simp only [List.getElem?_cons_succ] at h
      have := ih r h
      simp only [List.set_cons_succ, List.map_cons, List.sum_cons]
      omega

theorem bcastStep_rem (root : ℕ) (d : RootData) (r : ℕ) (s s' : BcastState)
    (hs : bcastStep root d r s = some s') :
    (s'.pcs.map BcastPc.rem).sum < (s.pcs.map BcastPc.rem).sum := by
  cases hpc : s.pcs[r]? with
  | none => simp [bcastStep, hpc] at hs
  | some pc =>
    cases pc <;> simp only [bcastStep, hpc] at hs
    · split_ifs at hs <;> obtain rfl := Option.some.inj hs <;>
        exact rem_set_lt _ _ _ _ hpc (by simp [BcastPc.rem])
    · split_ifs at hs
      · obtain rfl := Option.some.inj hs
        exact rem_set_lt _ _ _ _ hpc (by simp [BcastPc.rem])
      · cases hd : s.wire.dim <;> rw [hd] at hs <;> simp at hs
        subst hs
        exact rem_set_lt _ _ _ _ hpc (by simp [BcastPc.rem])
    · split_ifs at hs
      · obtain rfl := Option.some.inj hs
        exact rem_set_lt _ _ _ _ hpc (by simp [BcastPc.rem])
      · cases hd : s.wire.buf <;> rw [hd] at hs <;> simp at hs
        subst hs
        exact rem_set_lt _ _ _ _ hpc (by simp [BcastPc.rem])
    all_goals simp at hs

/-- Invariant when the root's array has the wrong dtype. -/
structure BcastBad (root : ℕ) (s : BcastState) : Prop where
  wire : s.wire.dim = none
  others : ∀ r, r ≠ root → ∀ pc, s.pcs[r]? = some pc → pc = .start ∨ pc = .atDim
  rootPc : ∀ pc, s.pcs[root]? = some pc → pc = .start ∨ pc = .failed

theorem bcastBad_step (root : ℕ) (d : RootData) (hf : d.isFloat64 = false)
    (r : ℕ) (s s' : BcastState) (inv : BcastBad root s)
    (hs : bcastStep root d r s = some s') : BcastBad root s' := by
  have hw := inv.wire
  cases hpc : s.pcs[r]? with
  | none => simp [bcastStep, hpc] at hs
  | some pc =>
    have hlt : r < s.pcs.length := (List.getElem?_eq_some_iff.mp hpc).1
    by_cases hr : r = root
    · subst hr
      rcases inv.rootPc pc hpc with rfl | rfl
      · simp only [bcastStep, hpc, hf, and_self, if_true] at hs
        obtain rfl := Option.some.inj hs
        refine ⟨hw, ?_, ?_⟩
        · intro r' hr' pc hpc
          rw [List.getElem?_set_ne (Ne.symm hr')] at hpc
          exact inv.others r' hr' pc hpc
        · intro pc hpc
          simp only [List.getElem?_set_self hlt, Option.some.injEq] at hpc
          right; exact hpc.symm
      · simp [bcastStep, hpc] at hs
    · rcases inv.others r hr pc hpc with rfl | rfl
      · simp only [bcastStep, hpc, hr, false_and, if_false] at hs
        obtain rfl := Option.some.inj hs
        refine ⟨hw, ?_, ?_⟩
        · intro r' hr' pc hpc
          by_cases hrr : r' = r
          · subst hrr
            simp only [List.getElem?_set_self hlt, Option.some.injEq] at hpc
            right; exact hpc.symm
          · rw [List.getElem?_set_ne (fun h => hrr h.symm)] at hpc
            exact inv.others r' hr' pc hpc
        · intro pc hpc
          rw [List.getElem?_set_ne hr] at hpc
          exact inv.rootPc pc hpc
      · simp only [bcastStep, hpc, hr, if_false, hw] at hs
        simp at hs

theorem bcastBad_run (root : ℕ) (d : RootData) (hf : d.isFloat64 = false)
    (sched : List ℕ) (s : BcastState) (inv : BcastBad root s) :
    BcastBad root (bcastRun root d s sched) := by
  induction sched generalizing s with
  | nil => exact inv
  | cons r rs ih =>
    apply ih
    cases h : bcastStep root d r s with
    | none => simpa using inv
    | some s' => simpa using bcastBad_step root d hf r s s' inv h

/-- Invariant of the device bookkeeping. -/
def DevInv (s : DevState) : Prop := s.compiledFor = s.mpiPmapDevices

theorem devInv_step (s : DevState) (op : DevOp) (h : DevInv s) : DevInv (devStep s op).1 := by
  cases op with
  | setDevices ds => cases ds <;> exact h
  | reduction =>
    simp only [devStep, jitMyStuff]
    split_ifs
    · rfl
    · exact h

theorem devObs_perm (s : DevState) (op : DevOp) (h : DevInv s) (o : DevObs)
    (ho : (devStep s op).2 = some o) (hne : o.current ≠ []) :
    ∃ k, o.kernel = some k ∧ k.Perm o.current := by
  cases op with
  | setDevices ds => simp [devStep] at ho
  | reduction =>
    simp only [devStep, Option.some.injEq] at ho
    subst ho
    by_cases hu : pmapDevicesUpdated s s.mpiPmapDevices = true
    · simp only [jitMyStuff, hu, if_true]
      exact ⟨_, rfl, List.Perm.refl _⟩
    · simp only [jitMyStuff, hu] at hne ⊢
      simp only [Bool.false_eq_true, if_false] at hne ⊢
      simp only [pmapDevicesUpdated, Bool.not_eq_true, Bool.not_eq_false', decide_eq_true_eq,
        Multiset.coe_eq_coe] at hu
      rw [h]
      cases hm : s.mpiPmapDevices with
      | none =>
        rw [hm] at hu
        exact absurd (List.perm_nil.mp hu.symm) hne
      | some k =>
        rw [hm] at hu
        exact ⟨k, rfl, hu⟩

theorem devRun_obs (s : DevState) (ops : List DevOp) (h : DevInv s) :
    ∀ o ∈ (devRun s ops).2, o.current ≠ [] → ∃ k, o.kernel = some k ∧ k.Perm o.current := by
  induction ops generalizing s with
  | nil => intro o ho; simp [devRun] at ho
  | cons op ops ih =>
    intro o ho hne
    simp only [devRun, List.mem_append, Option.mem_toList] at ho
    rcases ho with ho | ho
    · exact devObs_perm s op h o ho hne
    · exact ih _ (devInv_step s op h) o ho hne

end JVMC
