import Verif.Lemmas.Operator
import Verif.Props.BranchFree
import Mathlib.Analysis.SpecialFunctions.Complex.Log
import Mathlib.Tactic.NormNum

/-!
# Local estimators: C28, C29, C30, C33, C34
-/

namespace JVMC

open Matrix Spec

variable {S : Type}

theorem isNonzero_iff (x : ℂ) : isNonzero x = true ↔ (1e-6 : ℝ) < ‖x‖ := by
  unfold isNonzero; simp

/-- Every element is exactly zero or exceeds the threshold of the code. -/
def AboveThreshold (row : List (S × ℂ)) : Prop := ∀ e ∈ row, e.2 = 0 ∨ (1e-6 : ℝ) < ‖e.2‖

theorem oLocRow_filter (row : List (S × ℂ)) (h : AboveThreshold row) (l : ℂ) (f : S → ℂ) :
    oLocRow (row.filter fun e => isNonzero e.2) l f = oLocRow row l f := by
  induction row with
  | nil => rfl
  | cons e row ih =>
    have ih := ih fun e' h' => h e' (List.mem_cons_of_mem _ h')
    rw [List.filter_cons]
    split
    · unfold oLocRow at ih ⊢
      simp only [List.map_cons, List.sum_cons, ih]
    · rename_i hz
      have h0 : e.2 = 0 := by
        rcases h e List.mem_cons_self with h | h
        · exact h
        · exact absurd ((isNonzero_iff _).2 h) hz
      rw [ih]
      unfold oLocRow
      simp [h0]

/-! ## C28 — compression to the non-zero elements -/

/-- For every batch of samples and every operator (`numOps` elements per configuration): row `k` of
`get_s_primes` holds the elements above the threshold, in order, followed by padding with matrix
element exactly zero and configurations that are connected to the sample. -/
theorem c28_compression (kernel : S → List (S × ℂ)) (samples : List S) (numOps : ℕ)
    (hops : ∀ s ∈ samples, (kernel s).length = numOps) :
    (getSPrimes kernel samples).length = samples.length ∧
    ∀ k (hk : k < samples.length) (hk' : k < (getSPrimes kernel samples).length),
      ∃ nz pad : List (S × ℂ), (getSPrimes kernel samples)[k] = nz ++ pad ∧
        nz.Sublist (kernel samples[k]) ∧
        (∀ e, e ∈ nz ↔ e ∈ kernel samples[k] ∧ (1e-6 : ℝ) < ‖e.2‖) ∧
        nz.length = (kernel samples[k]).countP (fun e => isNonzero e.2) ∧
        ∀ e ∈ pad, e.2 = 0 ∧ e.1 ∈ (kernel samples[k]).map Prod.fst := by
  obtain ⟨h1, h2⟩ := getSPrimes_rows kernel samples numOps hops
  refine ⟨h1, ?_⟩
  intro k hk hk'
  obtain ⟨pad, hp, he⟩ := h2 k hk hk'
  refine ⟨_, pad, he, List.filter_sublist, ?_, ?_, hp⟩
  · intro e
    rw [List.mem_filter, isNonzero_iff]
  · rw [List.countP_eq_length_filter]

/-- The local estimator computed from the compressed elements equals the sum over all elements, for
operators whose elements are zero or above the threshold. Missing from C28: elements in
`(0, 1e-6]`, see `c28_violated`. -/
theorem c28_local_estimator_partial (kernel : S → List (S × ℂ)) (samples : List S)
    (logPsiS : List ℂ) (f : S → ℂ) (numOps : ℕ)
    (hops : ∀ s ∈ samples, (kernel s).length = numOps)
    (habove : ∀ s ∈ samples, AboveThreshold (kernel s)) :
    oLocOn kernel f samples logPsiS
      = List.zipWith (fun s l => ((kernel s).map fun e => e.2 * Complex.exp (f e.1 - l)).sum)
          samples logPsiS := by
  rw [oLocOn_eq _ _ _ _ numOps hops]
  apply List.ext_getElem
  · simp
  · intro k h1 h2
    simp only [List.getElem_zipWith]
    exact oLocRow_filter _ (habove _ (List.getElem_mem _)) _ _

/-- For branch-free operators on logarithmic networks: `get_O_loc` is the quantum mechanical
`∑_{s'} ⟨s|O|s'⟩ ψ(s') / ψ(s)` with the full matrix of the operator (products in reversed order,
see `c26_reversed_product`). -/
theorem c28_branch_free_partial {N d : ℕ} [NeZero N] (strs : List (List (LocalOp N d)))
    (pfs : List ℂ) (hlen : pfs.length = strs.length)
    (hf : ∀ ops ∈ strs, ∀ o ∈ ops, o.fermionic = true → d = 2)
    (hd : ∀ ops ∈ strs, ∀ o ∈ ops, o.diag = true → o.map = id)
    (samples : List (Config N d)) (logPsi : Config N d → ℂ)
    (habove : ∀ s ∈ samples, AboveThreshold (branchFreeKernel strs pfs s)) :
    oLocOn (branchFreeKernel strs pfs) logPsi samples (samples.map logPsi)
      = samples.map fun s => ∑ s', sumOfProducts (pfs.zip (strs.map fun ops =>
          (ops.map opMatrix).reverse)) s s' * (Complex.exp (logPsi s') / Complex.exp (logPsi s)) := by
  have hk : ∀ s, (branchFreeKernel strs pfs s).length = strs.length := by
    intro s
    simp [branchFreeKernel, kernelMasked, mergeDiag_length, rawSPrimes, hlen]
  rw [c28_local_estimator_partial _ _ _ _ strs.length (fun s _ => hk s) habove,
    List.zipWith_map_right, List.zipWith_self]
  apply List.map_congr_left
  intro s _
  have := kernel_applyTo strs pfs hlen hf hd s fun s' =>
    Complex.exp (logPsi s') / Complex.exp (logPsi s)
  unfold applyTo at this
  simp only [Complex.exp_sub]
  rw [this]
  rfl

/-- C28 fails for small elements: the operator `5·10⁻⁷ · 1` has local estimator `5·10⁻⁷`, but
`get_O_loc` returns 0. -/
theorem c28_violated :
    ∃ (kernel : Unit → List (Unit × ℂ)) (logPsi : Unit → ℂ),
      oLocOn kernel logPsi [()] [logPsi ()] = [0] ∧
      ((kernel ()).map fun e => e.2 * Complex.exp (logPsi e.1 - logPsi ())).sum = 5e-7 := by
  refine ⟨fun _ => [((), 5e-7)], fun _ => 0, ?_, by simp⟩
  have hnorm : ‖(5e-7 : ℂ)‖ = 5e-7 := by
    have : (5e-7 : ℂ) = ((5e-7 : ℝ) : ℂ) := by norm_num
    rw [this, Complex.norm_real]
    norm_num
  have : isNonzero (5e-7 : ℂ) = false := by
    rw [Bool.eq_false_iff, ne_eq, isNonzero_iff, hnorm]
    norm_num
  rw [oLocOn_eq _ _ _ _ 1 (by simp)]
  simp [oLocSample, this, oLocRow]

/-- Non-vacuity: `-Sz(0)Sz(1) + 3 Sx(0)`: all elements are 0, ±1 or 3. -/
theorem ising_above (s : Config 2 2) :
    AboveThreshold (branchFreeKernel [[opSz 0, opSz 1], [opSx 0]] [-1, 3] s) := by
  intro e he
  have hz : ∀ x : Fin 2, (arr2 (-1 : ℂ) 1) x = -1 ∨ (arr2 (-1 : ℂ) 1) x = 1 := by
    intro x; fin_cases x <;> simp [arr2]
  have h1 : ∀ x : Fin 2, (arr2 (1 : ℂ) 1) x = 1 := by
    intro x; fin_cases x <;> simp [arr2]
  have hm : diagIndices ([[opSz 0, opSz 1], [opSx 0]] : List (List (LocalOp 2 2))) = [0] := by
    simp [diagIndices, List.range_succ, opSz, opSx]
  have hl : maxOpStrLength ([[opSz 0, opSz 1], [opSx 0]] : List (List (LocalOp 2 2))) = 2 := rfl
  have hc1 : compileStr 2 ([opSz 0, opSz 1] : List (LocalOp 2 2)) = [opSz 1, opSz 0] := rfl
  have hc2 : compileStr 2 ([opSx 0] : List (LocalOp 2 2)) = [opSx 0, opId 0] := rfl
  simp only [branchFreeKernel, kernelMasked, hm, mergeDiag, rawSPrimes, hl,
    List.zipWith_cons_cons, List.zipWith_nil_right, hc1, hc2] at he
  simp [applyFun, opSz, opSx, opId, fermiFactor_bosonic, h1] at he
  right
  rcases he with rfl | rfl
  · rcases hz (s 0) with h | h <;> rcases hz (s 1) with h' | h' <;> norm_num [h, h']
  · norm_num

/-! ## C29 — batching of local estimators -/

/-- For every non-empty set of samples, every batch size and every logarithmic network: the batched
evaluation gives the same local estimators as the unbatched one, in the same order. Missing from
C29: networks with `logarithmic == False`, see `c29_violated`. -/
theorem c29_batched_eq_unbatched_partial (kernel : S → List (S × ℂ)) (psi : Net S)
    (hlog : psi.logarithmic = true) (zeroCfg : S) (samples : List S) (hn : samples ≠ [])
    (logPsiS : Option (List ℂ)) (hlen : ∀ l, logPsiS = some l → l.length = samples.length)
    (numOps : ℕ) (hops : ∀ s, (kernel s).length = numOps) (b : ℤ) :
    getOLoc kernel psi zeroCfg b samples logPsiS
      = getOLoc kernel psi zeroCfg (-1) samples logPsiS := by
  have hval : psi.logPsiSP = psi.val := by
    funext s; simp [Net.logPsiSP, hlog]
  unfold getOLoc
  dsimp only
  generalize hL : logPsiS.getD (samples.map psi.val) = L
  have hLl : L.length = samples.length := by
    rw [← hL]
    cases logPsiS with
    | none => simp
    | some l => exact hlen l rfl
  rw [if_neg (by omega : ¬ (0 : ℤ) < -1)]
  split
  · rename_i hb
    have hn' : 0 < samples.length := List.length_pos_iff.2 hn
    obtain ⟨p1, p2, p3, p4, p5⟩ := oLocPlan_props samples.length b.toNat (by omega) hn'
    rw [oLocOn_eq _ _ _ _ numOps fun s _ => hops s]
    unfold getOLocBatched
    dsimp only
    rw [p4, p5]
    generalize hbs : (oLocPlan samples.length b.toNat).1 = bs at *
    have hdm := Nat.div_add_mod samples.length bs
    have hmul : samples.length / bs * bs + samples.length % bs = samples.length := by
      rw [Nat.mul_comm]; exact hdm
    have hnb : 0 < samples.length / bs := Nat.div_pos p3 p1
    obtain ⟨o, h1, h2, h3⟩ := oLocLoop_eq kernel psi samples L hLl bs numOps hops
      (samples.length / bs) (by omega) hnb
    generalize hx : List.zipWith (oLocSample kernel psi.logPsiSP) samples L = x at *
    have hxl : x.length = samples.length := by rw [← hx]; simp [hLl]
    rw [h1]
    split
    · rename_i hr
      simp only [Option.map_some]
      congr 1
      have hmod := Nat.mod_lt samples.length p1
      have hout : dynSlice (oLocOn kernel psi.val
            (expandBatch zeroCfg (dynSlice samples (samples.length / bs * bs)
              (samples.length % bs)) bs)
            (expandBatch 0 (dynSlice L (samples.length / bs * bs) (samples.length % bs)) bs))
            0 (samples.length % bs)
          = dynSlice x (samples.length / bs * bs) (samples.length % bs) := by
        rw [oLocOn_eq _ _ _ _ numOps fun s _ => hops s]
        have l1 := dynSlice_length samples (samples.length / bs * bs) (samples.length % bs)
          (by omega)
        have l2 := dynSlice_length L (samples.length / bs * bs) (samples.length % bs) (by omega)
        unfold expandBatch
        rw [List.zipWith_append (by rw [l1, l2]), dynSlice_zipWith]
        rw [← hval, hx]
        unfold dynSlice
        rw [List.drop_zero, List.take_append_of_le_length]
        · rw [List.take_take, Nat.min_self]
        · simp; omega
      rw [hout]
      obtain ⟨q1, q2⟩ := dynUpdate_take x o (samples.length / bs * bs) (samples.length % bs)
        (by omega) (by omega) h3
      rw [hmul, List.take_of_length_le (by omega), List.take_of_length_le (by omega)] at q1
      exact q1
    · rename_i hr
      congr 1
      have h0 : samples.length % bs = 0 := by omega
      rw [h0, Nat.add_zero] at hmul
      rw [hmul, List.take_of_length_le (by omega), List.take_of_length_le (by omega)] at h3
      exact h3
  · rfl

/-- No batch handed to the operator and the network exceeds the configured size (or is empty), and
the full batches followed by the used part of the remainder batch are the samples in order. -/
theorem c29_batch_sizes (zeroCfg : S) (samples : List S) (hn : samples ≠ []) (b : ℕ) (hb : 0 < b) :
    (∀ batch ∈ oLocBatches zeroCfg samples b, batch.length ≤ b ∧ batch ≠ []) ∧
      samples <+: (oLocBatches zeroCfg samples b).flatten := by
  have hn' : 0 < samples.length := List.length_pos_iff.2 hn
  obtain ⟨p1, p2, p3, p4, p5⟩ := oLocPlan_props samples.length b hb hn'
  unfold oLocBatches
  dsimp only
  rw [p4, p5]
  generalize (oLocPlan samples.length b).1 = bs at *
  have hmul : samples.length / bs * bs + samples.length % bs = samples.length := by
    rw [Nat.mul_comm]; exact Nat.div_add_mod samples.length bs
  have hmod := Nat.mod_lt samples.length p1
  constructor
  · intro batch hmem
    have hlen : batch.length = bs := by
      rw [List.mem_append] at hmem
      rcases hmem with h | h
      · obtain ⟨k, hk, rfl⟩ := List.mem_map.1 h
        have hk := List.mem_range.1 hk
        apply dynSlice_length
        have : (k + 1) * bs ≤ samples.length / bs * bs := Nat.mul_le_mul_right _ hk
        rw [Nat.succ_mul] at this
        omega
      · split at h
        · rw [List.mem_singleton] at h
          subst h
          unfold expandBatch
          rw [List.length_append, List.length_replicate, dynSlice_length _ _ _ (by omega)]
          omega
        · simp at h
    refine ⟨by omega, ?_⟩
    intro h
    rw [h] at hlen
    simp at hlen
    omega
  · have hfull : ∀ k, k ≤ samples.length / bs →
        ((List.range k).map fun j => dynSlice samples (j * bs) bs).flatten
          = samples.take (k * bs) := by
      intro k
      induction k with
      | zero => intro _; simp
      | succ k ih =>
        intro hk
        rw [List.range_succ, List.map_append, List.flatten_append, ih (by omega), Nat.succ_mul,
          List.take_add]
        simp [dynSlice]
    rw [List.flatten_append, hfull _ (le_refl _)]
    split
    · rename_i hr
      have e : samples = samples.take (samples.length / bs * bs)
          ++ dynSlice samples (samples.length / bs * bs) (samples.length % bs) := by
        unfold dynSlice
        rw [← List.take_add, hmul, List.take_length]
      unfold expandBatch
      simp only [List.flatten_cons, List.flatten_nil, List.append_nil]
      rw [← List.append_assoc]
      nth_rewrite 1 [e]
      exact List.prefix_append _ _
    · rw [List.take_of_length_le (by omega)]
      simp

/-- Without samples (possible on no device in practice) the batched evaluation returns `None`. -/
theorem c29_empty (kernel : S → List (S × ℂ)) (psi : Net S) (zeroCfg : S) (b : ℕ) :
    getOLocBatched kernel psi zeroCfg [] [] b = none := by
  simp [getOLocBatched, oLocPlan, oLocLoop]

/-- Non-vacuity: seven samples in batches of at most 3 (2, 2, 2 and a padded remainder batch). -/
example : oLocBatches 0 [1, 2, 3, 4, 5, 6, 7] 3 = [[1, 2], [3, 4], [5, 6], [7, 0]] := by decide

/-! ## C30 — networks that return amplitudes -/

/-- If the caller passes `logPsiS = log ψ(s)` explicitly and evaluates without batches: the
estimator is `∑ O_{ss'} ψ(s')/ψ(s)`. Missing from C30: the default `logPsiS=None` and the remainder
batch of the batched evaluation, see `c30_violated_default`, `c30_violated_batched`. -/
theorem c30_amplitudes_partial (kernel : S → List (S × ℂ)) (psi : Net S)
    (hlog : psi.logarithmic = false) (zeroCfg : S) (samples : List S) (b : ℤ) (hb : b ≤ 0)
    (numOps : ℕ) (hops : ∀ s ∈ samples, (kernel s).length = numOps)
    (habove : ∀ s ∈ samples, AboveThreshold (kernel s))
    (hS : ∀ s ∈ samples, psi.val s ≠ 0)
    (hSP : ∀ s ∈ samples, ∀ e ∈ kernel s, psi.val e.1 ≠ 0) :
    getOLoc kernel psi zeroCfg b samples (some (samples.map fun s => Complex.log (psi.val s)))
      = some (samples.map fun s => ((kernel s).map fun e => e.2 * (psi.val e.1 / psi.val s)).sum) := by
  unfold getOLoc
  dsimp only
  rw [if_neg (by omega), Option.getD_some,
    c28_local_estimator_partial _ _ _ _ numOps hops habove, List.zipWith_map_right,
    List.zipWith_self]
  congr 1
  apply List.map_congr_left
  intro s hs
  congr 1
  apply List.map_congr_left
  intro e he
  simp only [Net.logPsiSP, hlog, Bool.false_eq_true, if_false]
  rw [Complex.exp_sub, Complex.exp_log (hS s hs), Complex.exp_log (hSP s hs e he)]

/-- C30 fails for the default call `get_O_loc(samples, psi)`: the identity operator should have
local estimator 1, the code returns `ψ(s)/e^{ψ(s)}`. -/
theorem c30_violated_default :
    ∃ (kernel : Unit → List (Unit × ℂ)) (psi : Net Unit), psi.logarithmic = false ∧
      (∀ s, kernel s = [(s, 1)]) ∧ psi.val () ≠ 0 ∧
      getOLoc kernel psi () (-1) [()] none ≠ some [1] := by
  refine ⟨fun s => [(s, 1)], ⟨fun _ => 1, false⟩, rfl, fun _ => rfl, one_ne_zero, ?_⟩
  have hnz : isNonzero 1 = true := by rw [isNonzero_iff]; norm_num
  unfold getOLoc
  dsimp only
  rw [if_neg (by omega), oLocOn_eq _ _ _ _ 1 (by simp)]
  simp [oLocSample, oLocRow, hnz, Net.logPsiSP]
  intro h
  have h1 := congrArg Complex.re h
  have h2 : Complex.exp (-1) = ((Real.exp (-1) : ℝ) : ℂ) := by push_cast; rfl
  rw [h2] at h1
  simp only [Complex.ofReal_re, Complex.one_re] at h1
  have h3 : Real.exp (-1) < 1 := Real.exp_lt_one_iff.2 (by norm_num)
  linarith

theorem exp_one_ne_one : ¬ Complex.exp 1 = 1 := by
  intro h
  have h1 := congrArg Complex.re h
  have h2 : Complex.exp 1 = ((Real.exp 1 : ℝ) : ℂ) := by push_cast; rfl
  rw [h2] at h1
  simp only [Complex.ofReal_re, Complex.one_re] at h1
  have h3 : 1 < Real.exp 1 := Real.one_lt_exp_iff.2 (by norm_num)
  linarith

/-- C30 fails for batched evaluation even with correct `logPsiS`: in the remainder batch the
amplitudes of the connected configurations are used as logarithms. -/
theorem c30_violated_batched :
    ∃ (kernel : Unit → List (Unit × ℂ)) (psi : Net Unit), psi.logarithmic = false ∧
      (∀ s, kernel s = [(s, 1)]) ∧ psi.val () ≠ 0 ∧
      getOLoc kernel psi () 4 [(), (), (), (), ()]
        (some (List.replicate 5 (Complex.log (psi.val ())))) ≠ some [1, 1, 1, 1, 1] := by
  refine ⟨fun s => [(s, 1)], ⟨fun _ => 1, false⟩, rfl, fun _ => rfl, one_ne_zero, ?_⟩
  have hnz : isNonzero 1 = true := by rw [isNonzero_iff]; norm_num
  have hon : ∀ (f : Unit → ℂ) (s : List Unit) (l : List ℂ),
      oLocOn (fun s => [(s, 1)]) f s l
        = List.zipWith (fun s l => Complex.exp (f s - l)) s l := by
    intro f s l
    rw [oLocOn_eq _ _ _ _ 1 (fun _ _ => rfl)]
    congr 1
    funext s l
    simp [oLocSample, oLocRow, hnz]
  have hplan : oLocPlan 5 4 = (2, 2, 1) := by decide
  simp only [getOLoc, getOLocBatched, oLocLoop, hon]
  have h4 : Int.toNat 4 = 4 := rfl
  have h5 : [(), (), (), (), ()].length = 5 := rfl
  rw [h5, h4, hplan]
  simp [dynSlice, dynUpdate, expandBatch, Net.logPsiSP, List.range_succ, List.replicate_succ]
  exact exp_one_ne_one

/-- C29 fails for the same reason: with `logarithmic == False` the last of five estimators differs
between batched and unbatched evaluation. -/
theorem c29_violated :
    ∃ (kernel : Unit → List (Unit × ℂ)) (psi : Net Unit) (samples : List Unit) (l : List ℂ),
      psi.logarithmic = false ∧ l.length = samples.length ∧
      getOLoc kernel psi () 4 samples (some l) ≠ getOLoc kernel psi () (-1) samples (some l) := by
  obtain ⟨kernel, psi, hlog, hk, hne, hv⟩ := c30_violated_batched
  refine ⟨kernel, psi, [(), (), (), (), ()], List.replicate 5 (Complex.log (psi.val ())), hlog,
    List.length_replicate, ?_⟩
  intro h
  apply hv
  have hnz : isNonzero 1 = true := by rw [isNonzero_iff]; norm_num
  rw [h]
  unfold getOLoc
  dsimp only
  rw [if_neg (by omega), oLocOn_eq _ _ _ _ 1 (by simp [hk])]
  simp [oLocSample, oLocRow, hnz, hk, Net.logPsiSP, hlog, List.replicate_succ]

/-! ## C33 — recompilation -/

/-- Consistency of an operator object: once compiled, the argument function belongs to all terms;
a stored kernel belongs to a prefix of the terms. -/
private def OpState.Inv {Term : Type} (st : OpState Term) : Prop :=
  (st.compiled = true → st.argf = some st.ops) ∧ ∀ p, st.kern = some p → p.1 <+: st.ops

private theorem inv_eval {Term : Type} (argOk : List Term → Bool) (st : OpState Term) (n : ℕ)
    (h : st.Inv) : (st.eval argOk n).2.Inv ∧ (st.eval argOk n).2.ops = st.ops ∧
      ∀ ks m ts, (st.eval argOk n).1 = .ok (ks, m, ts) → ks = st.ops ∧ ts = st.ops := by
  obtain ⟨h1, h2⟩ := h
  unfold OpState.eval
  split
  · dsimp only
    split
    · refine ⟨⟨fun _ => rfl, ?_⟩, rfl, ?_⟩
      · intro p hp
        simp only [Option.some.injEq] at hp
        subst hp
        exact List.prefix_refl _
      · intro ks m ts he
        simp only [Except.ok.injEq, Prod.mk.injEq] at he
        exact ⟨he.1.symm, he.2.2.symm⟩
    · refine ⟨⟨fun _ => rfl, h2⟩, rfl, ?_⟩
      intro ks m ts he
      cases he
  · rename_i hc
    have hcomp : st.compiled = true := by
      cases hcs : st.compiled
      · simp [hcs] at hc
      · rfl
    have ha := h1 hcomp
    rw [ha]
    cases hk : st.kern with
    | none =>
      dsimp only
      split <;> exact ⟨⟨h1, h2⟩, rfl, fun _ _ _ he => by cases he⟩
    | some p =>
      obtain ⟨ks, m⟩ := p
      dsimp only
      split
      · split
        · rename_i hl
          refine ⟨⟨h1, h2⟩, rfl, ?_⟩
          intro ks' m' ts' he
          simp only [Except.ok.injEq, Prod.mk.injEq] at he
          obtain ⟨rfl, -, rfl⟩ := he
          exact ⟨(h2 _ hk).eq_of_length hl, rfl⟩
        · exact ⟨⟨h1, h2⟩, rfl, fun _ _ _ he => by cases he⟩
      · exact ⟨⟨h1, h2⟩, rfl, fun _ _ _ he => by cases he⟩

private theorem run_spec {Term : Type} (cs : List (OpCall Term)) (st : OpState Term) (h : st.Inv) :
    ∀ r ∈ (st.run cs).2, ∀ ks m ts, r.2.2 = .ok (ks, m, ts) → ks = r.1 ∧ ts = r.1 := by
  induction cs generalizing st with
  | nil => intro r hr; simp [OpState.run] at hr
  | cons c cs ih =>
    cases c with
    | add t =>
      unfold OpState.run
      apply ih
      exact ⟨fun hc => by simp [OpState.add] at hc,
        fun p hp => (h.2 p hp).trans (List.prefix_append _ _)⟩
    | eval argOk n =>
      obtain ⟨e1, e2, e3⟩ := inv_eval argOk st n h
      intro r hr ks m ts he
      unfold OpState.run at hr
      dsimp only at hr
      rcases List.mem_cons.1 hr with rfl | hr
      · exact e3 ks m ts he
      · exact ih _ e1 r hr ks m ts he

/-- For every interleaving of additions and evaluations, including evaluations that raise: whenever
an evaluation returns a result, both the kernel and the prefactors were compiled from exactly the
terms that had been added by then. -/
theorem c33_never_stale {Term : Type} (calls : List (OpCall Term)) :
    ∀ r ∈ (OpState.new.run calls).2, ∀ kernelTerms m prefactorTerms,
      r.2.2 = .ok (kernelTerms, m, prefactorTerms) → kernelTerms = r.1 ∧ prefactorTerms = r.1 :=
  run_spec calls OpState.new ⟨(fun h => by cases h), (fun p hp => by cases hp)⟩

/-- The evaluations record the terms added before them. -/
theorem c33_terms_recorded {Term : Type} (st : OpState Term) (pre post : List (OpCall Term))
    (argOk : List Term → Bool) (n : ℕ) :
    ∃ l r l', (st.run (pre ++ OpCall.eval argOk n :: post)).2 = l ++ r :: l' ∧ r.2.1 = n ∧
      r.1 = st.ops ++ pre.filterMap fun c => match c with
        | .add t => some t
        | .eval _ _ => none := by
  induction pre generalizing st with
  | nil =>
    refine ⟨[], _, _, rfl, rfl, by simp⟩
  | cons c pre ih =>
    cases c with
    | add t =>
      obtain ⟨l, r, l', h1, h2, h3⟩ := ih (st.add t)
      refine ⟨l, r, l', ?_, h2, ?_⟩
      · simpa [OpState.run] using h1
      · rw [h3]; simp [OpState.add]
    | eval a k =>
      obtain ⟨l, r, l', h1, h2, h3⟩ := ih (st.eval a k).2
      refine ⟨(st.ops, k, (st.eval a k).1) :: l, r, l', ?_, h2, ?_⟩
      · simpa [OpState.run] using h1
      · rw [h3]
        have : (st.eval a k).2.ops = st.ops := by
          unfold OpState.eval
          split
          · dsimp only; split <;> rfl
          · split
            · split
              · split <;> rfl
              · rfl
            · split <;> rfl
            · rfl
        rw [this]
        simp

private def OpState.Live {Term : Type} (st : OpState Term) : Prop :=
  st.compiled = true → st.argf = some st.ops ∧
    ∃ m : ℕ, st.kern = some (st.ops, m) ∧ st.compiledArgnum = m

/-- If preprocessing of the arguments never raises, every evaluation succeeds, with a kernel compiled
for the number of arguments of this call. Missing from C33: histories with exceptions, after which
evaluation can fail until the next `add` (`c33_violated`). -/
theorem c33_argument_number_partial {Term : Type} (calls : List (OpCall Term))
    (hok : ∀ c ∈ calls, ∀ argOk n, c = .eval argOk n → ∀ ts, argOk ts = true) :
    ∀ r ∈ (OpState.new.run calls).2, r.2.2 = .ok (r.1, r.2.1, r.1) := by
  have main : ∀ (cs : List (OpCall Term)) (st : OpState Term), st.Live →
      (∀ c ∈ cs, ∀ argOk n, c = .eval argOk n → ∀ ts, argOk ts = true) →
      ∀ r ∈ (st.run cs).2, r.2.2 = .ok (r.1, r.2.1, r.1) := by
    intro cs
    induction cs with
    | nil => intro st _ _ r hr; simp [OpState.run] at hr
    | cons c cs ih =>
      intro st hl hok r hr
      have hok' := fun c' (hc' : c' ∈ cs) => hok c' (List.mem_cons_of_mem _ hc')
      cases c with
      | add t =>
        unfold OpState.run at hr
        exact ih (st.add t) (fun h => by simp [OpState.add] at h) hok' r hr
      | eval argOk n =>
        have ha := hok _ List.mem_cons_self argOk n rfl
        have hev : (st.eval argOk n).1 = .ok (st.ops, n, st.ops) ∧ (st.eval argOk n).2.Live := by
          unfold OpState.eval
          split
          · dsimp only
            rw [if_pos (ha _)]
            exact ⟨rfl, fun _ => ⟨rfl, n, rfl, rfl⟩⟩
          · rename_i hc
            have hcomp : st.compiled = true := by
              cases hcs : st.compiled
              · simp [hcs] at hc
              · rfl
            obtain ⟨h1, m, h2, h3⟩ := hl hcomp
            have hm : m = n := by
              simp [hcomp, h3] at hc
              exact hc
            rw [h1, h2]
            dsimp only
            rw [if_pos (ha _), if_pos rfl, hm]
            exact ⟨rfl, fun _ => ⟨h1, m, h2, h3⟩⟩
        unfold OpState.run at hr
        dsimp only at hr
        rcases List.mem_cons.1 hr with rfl | hr
        · exact hev.1
        · exact ih _ hev.2 hok' r hr
  exact main calls OpState.new (fun h => by cases h) hok

/-- C33 fails after an exception: the first evaluation raises in the preprocessing (e.g. a
prefactor needs other arguments); a second evaluation with valid arguments of the same number then
raises `TypeError` (`'NoneType' object is not callable`), although a fresh operator with the same
terms evaluates fine. -/
theorem c33_violated :
    ((OpState.new (Term := Unit)).run [.add (), .eval (fun _ => false) 1,
        .eval (fun _ => true) 1]).2.map (fun r => r.2.2)
      = [.error .typeError, .error .typeError] ∧
    ((OpState.new (Term := Unit)).run [.add (), .eval (fun _ => true) 1]).2.map (fun r => r.2.2)
      = [.ok ([()], 1, [()])] := by
  constructor <;> rfl

/-- Non-vacuity: add, evaluate, add, evaluate with another number of arguments. -/
example : ((OpState.new (Term := ℕ)).run [.add 7, .eval (fun _ => true) 0, .add 8,
    .eval (fun _ => true) 0, .eval (fun _ => true) 1]).2.map (fun r => r.2.2)
      = [.ok ([7], 0, [7]), .ok ([7, 8], 0, [7, 8]), .ok ([7, 8], 1, [7, 8])] := rfl

/-! ## C34 — estimator functions -/

/-- For operators whose `compile()` returns a pair and whose elements are zero or above the
threshold, the estimator function agrees with `get_O_loc` on every configuration. Missing from
C34: operators whose `compile()` returns a single function (`c34_violated`). -/
theorem c34_estimator_partial {Arg Pre : Type} (f : S → Pre → List (S × ℂ)) (pre : List Arg → Pre)
    (args : List Arg) (net : S → ℂ) (zeroCfg : S) (samples : List S) (numOps : ℕ)
    (hops : ∀ s ∈ samples, (f s (pre args)).length = numOps)
    (habove : ∀ s ∈ samples, AboveThreshold (f s (pre args))) (b : ℤ) (hb : b ≤ 0) :
    ∃ l, getOLoc ((Compiled.pair f pre).kernel args) ⟨net, true⟩ zeroCfg b samples none = some l ∧
      samples.mapM (estimator (Compiled.pair f pre) args net) = .ok l := by
  refine ⟨samples.map fun s => oLocRow (f s (pre args)) (net s) net, ?_, ?_⟩
  · unfold getOLoc
    dsimp only
    rw [if_neg (by omega), Option.getD_none,
      c28_local_estimator_partial ((Compiled.pair f pre).kernel args) _ _ _ numOps hops habove,
      List.zipWith_map_right, List.zipWith_self]
    rfl
  · apply mapM_all_ok
    intro s _
    rfl

/-- C34 fails for every operator whose `compile()` returns a single function — the documented
interface, used e.g. by `POVMOperator`: the estimator function raises on every configuration. -/
theorem c34_violated {Arg Pre : Type} (f : S → List Arg → List (S × ℂ)) (args : List Arg)
    (net : S → ℂ) (s : S) :
    estimator (Compiled.single (Pre := Pre) f) args net s = .error .unboundLocalError := rfl

/-- Non-vacuity: a pair `(f, preprocessor)` with elements 1 and 2. -/
example : ∃ l, getOLoc ((Compiled.pair (fun (s : ℕ) (p : ℂ) => [(s, p), (s + 1, 2)])
      (fun (_ : List Unit) => (1 : ℂ))).kernel []) ⟨fun s => (s : ℂ), true⟩ 0 0 [3, 4] none = some l ∧
    [3, 4].mapM (estimator (Compiled.pair (fun (s : ℕ) (p : ℂ) => [(s, p), (s + 1, 2)])
      (fun (_ : List Unit) => (1 : ℂ))) [] fun s => (s : ℂ)) = .ok l := by
  apply c34_estimator_partial _ _ _ _ _ _ 2 (by simp) _ _ (le_refl _)
  intro s _ e he
  simp at he
  right
  rcases he with rfl | rfl <;> norm_num

end JVMC
