import Verif.Model.BranchFree
import Verif.Spec.Operators
import Mathlib.Algebra.BigOperators.Group.List.Basic
import Mathlib.Algebra.Order.BigOperators.Group.List
import Mathlib.Tactic.Ring
import Mathlib.Tactic.Linarith
import Mathlib.Tactic.FinCases

/-! # Helper lemmas for `Model/BranchFree` -/

namespace JVMC

open Matrix Spec

variable {N d : ℕ}

/-- The one-site matrix a `LocalOp` dictionary describes: row `a` has the single entry `matEls[a]`
in column `map[a]`. -/
def localMatrix (op : LocalOp N d) : Matrix (Fin d) (Fin d) ℂ :=
  fun a b => if b = op.map a then op.matEls a else 0

/-- The many-body operator `⟨s|·|s'⟩` a `LocalOp` dictionary describes. -/
noncomputable def opMatrix (op : LocalOp N d) : Matrix (Config N d) (Config N d) ℂ :=
  if op.fermionic then jordanWigner op.idx * siteOperator op.idx (localMatrix op)
  else siteOperator op.idx (localMatrix op)

/-! ## Action of the specification matrices -/

theorem siteOperator_mulVec (i : Fin N) (A : Matrix (Fin d) (Fin d) ℂ) (ψ : Config N d → ℂ)
    (s : Config N d) :
    (siteOperator i A *ᵥ ψ) s = ∑ b, A (s i) b * ψ (Function.update s i b) := by
  classical
  simp only [mulVec, dotProduct, siteOperator]
  have h : ∀ b, A (s i) b * ψ (Function.update s i b)
      = ∑ s' : Config N d, if s' = Function.update s i b then A (s i) (s' i) * ψ s' else 0 := by
    intro b
    rw [Finset.sum_ite_eq' Finset.univ (Function.update s i b) fun s' => A (s i) (s' i) * ψ s']
    simp
  simp only [h]
  rw [Finset.sum_comm]
  refine Finset.sum_congr rfl fun s' _ => ?_
  by_cases hs : ∀ j, j ≠ i → s j = s' j
  · have hu : s' = Function.update s i (s' i) := by
      funext j
      by_cases hj : j = i
      · subst hj; simp
      · simp [hj, (hs j hj).symm]
    rw [Finset.sum_eq_single (s' i)]
    · rw [if_pos hu, if_pos hs, mul_one]
    · intro b _ hb
      rw [if_neg]
      intro he
      apply hb
      rw [he]; simp
    · simp
  · rw [if_neg hs, mul_zero, zero_mul]
    symm
    apply Finset.sum_eq_zero
    intro b _
    rw [if_neg]
    intro he
    apply hs
    intro j hj
    rw [he]; simp [hj]

/-- The string factor of site `i` in configuration `s`. -/
def jwSign (i : Fin N) (s : Config N d) : ℂ := ∏ j, if i < j then (-1 : ℂ) ^ (s j : ℕ) else 1

theorem jordanWigner_mulVec (i : Fin N) (ψ : Config N d → ℂ) (s : Config N d) :
    (jordanWigner i *ᵥ ψ) s = jwSign i s * ψ s := by
  simp [jordanWigner, mulVec_diagonal, jwSign]

theorem localMatrix_sum (op : LocalOp N d) (a : Fin d) (f : Fin d → ℂ) :
    ∑ b, localMatrix op a b * f b = op.matEls a * f (op.map a) := by
  simp [localMatrix]

/-- The sign a local operator comes with. -/
def opSign (op : LocalOp N d) (s : Config N d) : ℂ :=
  if op.fermionic then jwSign op.idx s else 1

theorem opMatrix_mulVec (op : LocalOp N d) (ψ : Config N d → ℂ) (s : Config N d) :
    (opMatrix op *ᵥ ψ) s = opSign op s * op.matEls (s op.idx)
      * ψ (Function.update s op.idx (op.map (s op.idx))) := by
  unfold opMatrix opSign
  split
  · rw [← mulVec_mulVec, jordanWigner_mulVec, siteOperator_mulVec, localMatrix_sum]; ring
  · rw [siteOperator_mulVec, localMatrix_sum]; ring

theorem eq_of_mulVec {A B : Matrix (Config N d) (Config N d) ℂ}
    (h : ∀ ψ s, (A *ᵥ ψ) s = (B *ᵥ ψ) s) : A = B :=
  Matrix.ext_of_mulVec_single fun i => by funext s; exact h _ s

/-! ## The sign factor of the code -/

theorem fermiFactor_bosonic (mask : Fin N → Fin N → ℤ) (i : Fin N) (c : Config N d) :
    fermiFactor mask false i c = 1 := by
  unfold fermiFactor
  apply Finset.prod_eq_one
  intro j _
  simp

theorem fermiFactor_fermionic (i : Fin N) (c : Config N 2) :
    ((fermiFactor triMask true i c : ℤ) : ℂ) = jwSign i c := by
  unfold fermiFactor jwSign
  push_cast
  refine Finset.prod_congr rfl fun j _ => ?_
  simp only [triMask, if_true]
  have : (c j : ℕ) = 0 ∨ (c j : ℕ) = 1 := by omega
  rcases this with h | h <;> by_cases hj : i < j <;> simp [h, hj] <;> norm_num

theorem fermiFactor_eq (op : LocalOp N d) (hf : op.fermionic = true → d = 2) (c : Config N d) :
    ((fermiFactor triMask op.fermionic op.idx c : ℤ) : ℂ) = opSign op c := by
  unfold opSign
  cases h : op.fermionic
  · simp [fermiFactor_bosonic]
  · obtain rfl := hf h
    simp [fermiFactor_fermionic]

/-! ## One string -/

theorem compileStr_eq [NeZero N] (maxLen : ℕ) (ops : List (LocalOp N d))
    (h : ops.length ≤ maxLen) :
    compileStr maxLen ops = ops.reverse ++ List.replicate (maxLen - ops.length) (opId 0) := by
  apply List.ext_getElem
  · simp [compileStr]; omega
  · intro k h1 h2
    simp only [compileStr, List.getElem_map, List.getElem_range]
    by_cases hk : k < ops.length
    · rw [dif_pos hk, List.getElem_append_left (by simpa using hk), List.getElem_reverse]
    · rw [dif_neg hk, List.getElem_append_right (by simpa using hk)]
      simp

theorem applyFun_opId [NeZero N] (mask : Fin N → Fin N → ℤ) (c : Config N d × ℂ) :
    applyFun mask c (opId 0) = c := by
  unfold applyFun
  simp [opId, fermiFactor_bosonic]

theorem foldl_opId [NeZero N] (mask : Fin N → Fin N → ℤ) (n : ℕ) (c : Config N d × ℂ) :
    (List.replicate n (opId 0)).foldl (applyFun mask) c = c := by
  induction n with
  | zero => rfl
  | succ n ih => rw [List.replicate_succ, List.foldl_cons, applyFun_opId, ih]

theorem foldl_applyFun (ops : List (LocalOp N d))
    (hf : ∀ o ∈ ops, o.fermionic = true → d = 2) (c : Config N d × ℂ) (ψ : Config N d → ℂ) :
    (ops.foldl (applyFun triMask) c).2 * ψ (ops.foldl (applyFun triMask) c).1
      = c.2 * ((ops.map opMatrix).prod *ᵥ ψ) c.1 := by
  induction ops generalizing c with
  | nil => simp
  | cons o ops ih =>
    rw [List.foldl_cons, ih (fun o' h => hf o' (List.mem_cons_of_mem _ h)), List.map_cons,
      List.prod_cons, ← mulVec_mulVec, opMatrix_mulVec]
    simp only [applyFun, fermiFactor_eq o (hf o List.mem_cons_self)]
    ring

theorem compiled_string [NeZero N] (maxLen : ℕ) (ops : List (LocalOp N d))
    (h : ops.length ≤ maxLen) (hf : ∀ o ∈ ops, o.fermionic = true → d = 2)
    (s : Config N d) (pf : ℂ) (ψ : Config N d → ℂ) :
    ((compileStr maxLen ops).foldl (applyFun triMask) (s, pf)).2
        * ψ ((compileStr maxLen ops).foldl (applyFun triMask) (s, pf)).1
      = pf * (((ops.map opMatrix).reverse.prod) *ᵥ ψ) s := by
  rw [compileStr_eq _ _ h, List.foldl_append, foldl_opId,
    foldl_applyFun _ (by simpa using hf), List.map_reverse]

theorem foldl_max_ge (l : List ℕ) (a : ℕ) : a ≤ l.foldl max a ∧ ∀ x ∈ l, x ≤ l.foldl max a := by
  induction l generalizing a with
  | nil => simp
  | cons x l ih =>
    obtain ⟨h1, h2⟩ := ih (max a x)
    refine ⟨le_trans (le_max_left _ _) h1, ?_⟩
    intro y hy
    rcases List.mem_cons.1 hy with rfl | hy
    · exact le_trans (le_max_right _ _) h1
    · exact h2 y hy

theorem length_le_max (strs : List (List (LocalOp N d))) (ops : List (LocalOp N d))
    (h : ops ∈ strs) : ops.length ≤ maxOpStrLength strs :=
  (foldl_max_ge _ 0).2 _ (List.mem_map_of_mem h)

/-! ## Merging of the diagonal strings -/

theorem sum_zipWith_set (f : List ℂ) (w : List ℂ) (k : ℕ) (v : ℂ) (hl : f.length = w.length)
    (hk : k < f.length) :
    (List.zipWith (· * ·) (f.set k v) w).sum
      = (List.zipWith (· * ·) f w).sum + (v - f.getD k 0) * w.getD k 0 := by
  induction f generalizing w k with
  | nil => simp at hk
  | cons a f ih =>
    cases w with
    | nil => simp at hl
    | cons b w =>
      cases k with
      | zero => simp; ring
      | succ k =>
        simp only [List.set_cons_succ, List.zipWith_cons_cons, List.sum_cons, List.getD_cons_succ]
        rw [ih w k (by simpa using hl) (by simpa using hk)]
        ring

theorem foldl_set_zero (ks : List ℕ) (f w : List ℂ) (W : ℂ) (hl : f.length = w.length)
    (hk : ∀ k ∈ ks, k < f.length) (hnd : ks.Nodup) (hw : ∀ k ∈ ks, w.getD k 0 = W) :
    (List.zipWith (· * ·) (ks.foldl (fun m k => m.set k 0) f) w).sum
      = (List.zipWith (· * ·) f w).sum - (ks.map fun k => f.getD k 0).sum * W := by
  induction ks generalizing f with
  | nil => simp
  | cons k ks ih =>
    rw [List.foldl_cons, ih (f.set k 0) (by simpa using hl)
      (by intro k' h'; simpa using hk k' (List.mem_cons_of_mem _ h')) (List.nodup_cons.1 hnd).2
      (fun k' h' => hw k' (List.mem_cons_of_mem _ h')),
      sum_zipWith_set f w k 0 hl (hk k List.mem_cons_self), hw k List.mem_cons_self]
    have : (ks.map fun k' => (f.set k 0).getD k' 0) = ks.map fun k' => f.getD k' 0 := by
      apply List.map_congr_left
      intro k' h'
      have hne : k ≠ k' := fun h => (List.nodup_cons.1 hnd).1 (h ▸ h')
      simp [List.getD_eq_getElem?_getD, List.getElem?_set_ne hne]
    rw [this, List.map_cons, List.sum_cons]
    ring

theorem mergeDiag_sum (diag : List ℕ) (f w : List ℂ) (W : ℂ) (hl : f.length = w.length)
    (hk : ∀ k ∈ diag, k < f.length) (hnd : diag.Nodup) (hw : ∀ k ∈ diag, w.getD k 0 = W) :
    (List.zipWith (· * ·) (mergeDiag diag f) w).sum = (List.zipWith (· * ·) f w).sum := by
  match diag, hk, hnd, hw with
  | [], _, _, _ => rfl
  | [_], _, _, _ => rfl
  | d0 :: d1 :: ds, hk, hnd, hw =>
    unfold mergeDiag
    dsimp only
    rw [foldl_set_zero (d1 :: ds) _ w W (by simpa using hl)
      (by intro k' h'; simpa using hk k' (List.mem_cons_of_mem _ h')) (List.nodup_cons.1 hnd).2
      (fun k' h' => hw k' (List.mem_cons_of_mem _ h')),
      sum_zipWith_set f w d0 _ hl (hk d0 List.mem_cons_self), hw d0 List.mem_cons_self]
    have : ((d1 :: ds).map fun k' => (f.set d0 (((d0 :: d1 :: ds).map
        fun k => f.getD k 0).sum)).getD k' 0) = (d1 :: ds).map fun k' => f.getD k' 0 := by
      apply List.map_congr_left
      intro k' h'
      have hne : d0 ≠ k' := fun h => (List.nodup_cons.1 hnd).1 (h ▸ h')
      simp [List.getD_eq_getElem?_getD, List.getElem?_set_ne hne]
    rw [this]
    simp only [List.map_cons, List.sum_cons]
    ring

theorem foldl_set_length (ks : List ℕ) (f : List ℂ) :
    (ks.foldl (fun m k => m.set k 0) f).length = f.length := by
  induction ks generalizing f with
  | nil => rfl
  | cons k ks ih => rw [List.foldl_cons, ih]; simp

theorem mergeDiag_length (diag : List ℕ) (f : List ℂ) : (mergeDiag diag f).length = f.length := by
  match diag with
  | [] => rfl
  | [_] => rfl
  | d0 :: d1 :: ds => unfold mergeDiag; dsimp only; rw [foldl_set_length]; simp

theorem foldl_diag (ops : List (LocalOp N d)) (mask : Fin N → Fin N → ℤ)
    (hd : ∀ o ∈ ops, o.map = id) (c : Config N d × ℂ) :
    (ops.foldl (applyFun mask) c).1 = c.1 := by
  induction ops generalizing c with
  | nil => rfl
  | cons o ops ih =>
    rw [List.foldl_cons, ih (fun o' h => hd o' (List.mem_cons_of_mem _ h))]
    simp [applyFun, hd o List.mem_cons_self]

/-- The whole kernel acting on a wave function. -/
theorem kernel_applyTo [NeZero N] (strs : List (List (LocalOp N d))) (pfs : List ℂ)
    (hlen : pfs.length = strs.length)
    (hf : ∀ ops ∈ strs, ∀ o ∈ ops, o.fermionic = true → d = 2)
    (hd : ∀ ops ∈ strs, ∀ o ∈ ops, o.diag = true → o.map = id)
    (s : Config N d) (ψ : Config N d → ℂ) :
    applyTo (branchFreeKernel strs pfs s) ψ
      = (sumOfProducts (pfs.zip (strs.map fun ops => (ops.map opMatrix).reverse)) *ᵥ ψ) s := by
  have hraw : ((rawSPrimes triMask strs pfs s).map fun e => e.2 * ψ e.1).sum
      = (sumOfProducts (pfs.zip (strs.map fun ops => (ops.map opMatrix).reverse)) *ᵥ ψ) s := by
    unfold rawSPrimes sumOfProducts
    have key : ∀ (m : ℕ) (l : List (List (LocalOp N d))) (p : List ℂ),
        (∀ ops ∈ l, ops.length ≤ m) → (∀ ops ∈ l, ∀ o ∈ ops, o.fermionic = true → d = 2) →
        ((List.zipWith (fun ops pf => (compileStr m ops).foldl (applyFun triMask) (s, pf)) l p).map
          fun e => e.2 * ψ e.1).sum
        = (((p.zip (l.map fun ops => (ops.map opMatrix).reverse)).map
            fun t => t.1 • t.2.prod).sum *ᵥ ψ) s := by
      intro m l
      induction l with
      | nil => intro p _ _; simp
      | cons ops l ih =>
        intro p h1 h2
        cases p with
        | nil => simp
        | cons pf p =>
          simp only [List.zipWith_cons_cons, List.map_cons, List.sum_cons, List.zip_cons_cons]
          rw [ih p (fun o h => h1 o (List.mem_cons_of_mem _ h))
              (fun o h => h2 o (List.mem_cons_of_mem _ h)),
            compiled_string m ops (h1 ops List.mem_cons_self) (h2 ops List.mem_cons_self),
            add_mulVec, smul_mulVec]
          simp
    exact key _ strs pfs (length_le_max strs) hf
  rw [← hraw]
  unfold branchFreeKernel kernelMasked applyTo
  dsimp only
  generalize hR : rawSPrimes triMask strs pfs s = R
  have hRl : R.length = strs.length := by
    rw [← hR]; simp [rawSPrimes, hlen]
  have e1 : ((R.map Prod.fst).zip (mergeDiag (diagIndices strs) (R.map Prod.snd))).map
      (fun e => e.2 * ψ e.1)
      = List.zipWith (· * ·) (mergeDiag (diagIndices strs) (R.map Prod.snd))
        (R.map fun e => ψ e.1) := by
    rw [List.zip_eq_zipWith, List.map_zipWith, List.zipWith_comm, List.zipWith_map_right]
    rw [List.zipWith_map_right]
  have e2 : R.map (fun e => e.2 * ψ e.1)
      = List.zipWith (· * ·) (R.map Prod.snd) (R.map fun e => ψ e.1) := by
    rw [List.zipWith_map, List.zipWith_self]
  rw [e1, e2]
  apply mergeDiag_sum _ _ _ (ψ s) (by simp)
  · intro k hk
    simp only [diagIndices, List.mem_filter, List.mem_range] at hk
    simpa [hRl] using hk.1
  · exact List.Nodup.filter _ List.nodup_range
  · intro k hk
    simp only [diagIndices, List.mem_filter, List.mem_range] at hk
    obtain ⟨hk, hall⟩ := hk
    rw [List.getD_eq_getElem?_getD, List.getElem?_map, List.getElem?_eq_getElem (by omega)]
    simp only [Option.map_some, Option.getD_some]
    congr 1
    subst hR
    simp only [rawSPrimes, List.getElem_zipWith]
    have hmem : strs[k] ∈ strs := List.getElem_mem hk
    rw [compileStr_eq _ _ (length_le_max strs _ hmem), List.foldl_append, foldl_opId]
    rw [List.getD_eq_getElem?_getD, List.getElem?_eq_getElem hk, Option.getD_some,
      List.all_eq_true] at hall
    rw [foldl_diag]
    intro o ho
    exact hd _ hmem o (List.mem_reverse.1 ho) (hall o (List.mem_reverse.1 ho))

theorem elementOf_eq_applyTo {C : Type} [DecidableEq C] (l : List (C × ℂ)) (s' : C) :
    elementOf l s' = applyTo l (Pi.single s' 1) := by
  unfold elementOf applyTo
  induction l with
  | nil => rfl
  | cons e l ih =>
    by_cases h : e.1 = s'
    · simp [h, ih]
    · simp [h, ih, Pi.single_apply]

/-! ## Commutation -/

theorem opMatrix_commute (a b : LocalOp N d) (ha : a.fermionic = false) (hb : b.fermionic = false)
    (h : a.idx ≠ b.idx) : Commute (opMatrix a) (opMatrix b) := by
  apply eq_of_mulVec
  intro ψ s
  simp only [← mulVec_mulVec, opMatrix_mulVec, opSign, ha, hb, Bool.false_eq_true, if_false,
    one_mul]
  rw [Function.update_of_ne h.symm, Function.update_of_ne h, Function.update_comm h]
  ring

theorem jwSign_update_of_not_lt (i k : Fin N) (s : Config N d) (x : Fin d) (h : ¬ i < k) :
    jwSign i (Function.update s k x) = jwSign i s := by
  unfold jwSign
  refine Finset.prod_congr rfl fun j _ => ?_
  by_cases hj : i < j
  · have : j ≠ k := fun e => h (e ▸ hj)
    simp [hj, this]
  · simp [hj]

theorem jwSign_update_flip (i k : Fin N) (s : Config N 2) (x : Fin 2) (hx : x ≠ s k)
    (h : i < k) : jwSign i (Function.update s k x) = -jwSign i s := by
  unfold jwSign
  rw [← Finset.mul_prod_erase _ _ (Finset.mem_univ k),
    ← Finset.mul_prod_erase _ (fun j => if i < j then (-1 : ℂ) ^ (s j : ℕ) else 1)
      (Finset.mem_univ k)]
  have : ∏ j ∈ Finset.univ.erase k,
      (if i < j then (-1 : ℂ) ^ ((Function.update s k x) j : ℕ) else 1)
      = ∏ j ∈ Finset.univ.erase k, (if i < j then (-1 : ℂ) ^ (s j : ℕ) else 1) := by
    refine Finset.prod_congr rfl fun j hj => ?_
    simp [Finset.ne_of_mem_erase hj]
  rw [this]
  simp only [h, if_true, Function.update_self]
  have hs : s k = 0 ∨ s k = 1 := by omega
  have hx' : x = 0 ∨ x = 1 := by omega
  rcases hs with hs | hs <;> rcases hx' with hx' | hx' <;> simp_all

theorem jwSign_sq (i : Fin N) (s : Config N d) : jwSign i s * jwSign i s = 1 := by
  unfold jwSign
  rw [← Finset.prod_mul_distrib]
  apply Finset.prod_eq_one
  intro j _
  split
  · rw [← mul_pow]; simp
  · simp

/-- Two fermionic operators that flip the occupation of different sites anticommute. -/
theorem opMatrix_anticommute (a b : LocalOp N 2) (ha : a.fermionic = true)
    (hb : b.fermionic = true) (ham : ∀ x, a.map x ≠ x) (hbm : ∀ x, b.map x ≠ x)
    (h : a.idx ≠ b.idx) : opMatrix a * opMatrix b = -(opMatrix b * opMatrix a) := by
  apply eq_of_mulVec
  intro ψ s
  simp only [← mulVec_mulVec, opMatrix_mulVec, opSign, ha, hb, neg_mulVec, Pi.neg_apply, if_true]
  rw [Function.update_of_ne h.symm, Function.update_of_ne h, Function.update_comm h]
  rcases lt_or_gt_of_ne h with hlt | hlt
  · rw [jwSign_update_flip a.idx b.idx s _ (hbm _) hlt,
      jwSign_update_of_not_lt b.idx a.idx s _ (by omega)]
    ring
  · rw [jwSign_update_flip b.idx a.idx s _ (ham _) hlt,
      jwSign_update_of_not_lt a.idx b.idx s _ (by omega)]
    ring

end JVMC
