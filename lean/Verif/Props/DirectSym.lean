import Verif.Props.DirectSampling
import Verif.Props.McmcSampling

/-!
# C92 for recurrent networks on square lattices and for symmetrised networks

The samples of symmetrised networks include the random symmetry operation of the sampler (`genSample1D`,
`genSample2D`).
-/

namespace JVMC

open Spec Matrix

/-! ## Laws from probabilities -/

theorem supported_of_average {A : Type} {d : WDist A} (h : ∀ e ∈ d, 0 ≤ e.2) (P : A → Prop)
    (h0 : chance d (fun a => ¬ P a) = 0) : Supported d P := by
  classical
  intro e he hne
  by_contra hP
  have h1 : e.2 ≤ chance d (fun a => ¬ P a) := by
    unfold chance average
    refine le_trans (le_of_eq ?_) (List.single_le_sum ?_ _ (List.mem_map.mpr ⟨e, he, rfl⟩))
    · simp [hP]
    · intro x hx
      obtain ⟨e', he', rfl⟩ := List.mem_map.mp hx
      have := h e' he'
      positivity
  have h2 := h e he
  exact hne (by linarith)

/-- If the outcomes are encoded configurations and have the probabilities `|ψ|²`, then the decoded outcomes have the
Born distribution. -/
theorem bornLaw_of_prob {A C : Type} [Fintype C] {law : WDist A} (hl : IsLaw law) (enc : C → A) (dec : A → C)
    (hdec : ∀ c, dec (enc c) = c) (hsupp : Supported law fun a => ∃ c, a = enc c) (ψ : C → ℂ)
    (hprob : ∀ c, prob law (enc c) = Complex.normSq (ψ c)) : BornLaw ψ (WDist.map dec law) := by
  classical
  have hp : ∀ c, prob (WDist.map dec law) c = Complex.normSq (ψ c) := by
    intro c
    rw [← hprob c]
    unfold prob WDist.map
    rw [List.map_map]
    congr 1
    apply List.map_congr_left
    intro e he
    simp only [Function.comp_apply]
    by_cases h0 : e.2 = 0
    · simp [h0]
    · obtain ⟨c', hc'⟩ := hsupp e he h0
      rw [hc', hdec]
      by_cases hcc : c' = c
      · simp [hcc]
      · have : ¬ enc c' = enc c := fun h => hcc (by rw [← hdec c', h, hdec])
        simp [hcc, this]
  have hlaw := isLaw_map dec hl
  refine ⟨hlaw, fun c => ?_⟩
  have hn : norm2 ψ = 1 := by
    have := hlaw.total
    rw [average_finite] at this
    simp only [hp, mul_one] at this
    exact this
  rw [hp, hn, div_one]

/-! ## The samples -/

/-- The configurations with entries in `{0, …, d-1}`. -/
def decodeEntries {ι : Type} (d : ℕ) [NeZero d] (x : ι → ℤ) : ι → Fin d := fun i => Fin.ofNat d (x i).toNat

/-- The configuration with the given rows. -/
def decodeLattice (L d : ℕ) [NeZero d] (l : List (List ℤ)) : Fin L → Fin L → Fin d := fun i j =>
  Fin.ofNat d ((l.getD i []).getD j 0).toNat

/-- A recurrent network on a square lattice with real parameters. -/
noncomputable def latticeNet {H O : Type} (d : ℕ) (realValuedOutput : Bool) (dense : O → ℕ → ℝ)
    (cell : H → H → (ℕ → ℝ) → (ℕ → ℝ) → H × O) (zeroCarry : ℕ → H) : Rnn2D H O :=
  ⟨realHead d (1 / 2) realValuedOutput dense, cell, zeroCarry⟩

/-- A recurrent network on a chain with real parameters. -/
noncomputable def chainNet {H O : Type} (d : ℕ) (realValuedOutput : Bool) (dense : O → ℕ → ℝ)
    (cell : H → (ℕ → ℝ) → H × O) (zeroCarry : H) : Rnn1D H O :=
  ⟨realHead d (1 / 2) realValuedOutput dense, cell, zeroCarry⟩

theorem isLaw_draw {O : Type} {head : RnnHead O} (hh : Normed head) (x : O) : IsLaw (head.draw x) := by
  refine ⟨?_, expect_draw_one hh _⟩
  intro e he
  obtain ⟨j, _, rfl⟩ := List.mem_map.mp he
  positivity

theorem isLaw_rnnSampleH {H O : Type} (net : Rnn2D H O) (hh : Normed net.head) (xs : List (H × (ℕ → ℝ)))
    (c : H × (ℕ → ℝ)) : IsLaw (rnnSampleH net c xs) := by
  induction xs generalizing c with
  | nil => exact isLaw_pure _
  | cons x xs ih =>
    rw [rnnSampleH]
    exact isLaw_bind (isLaw_draw hh _) _ fun j => isLaw_bind (ih _) _ fun _ => isLaw_pure _

theorem isLaw_rnnSampleV {H O : Type} (net : Rnn2D H O) (hh : Normed net.head) (n r : ℕ)
    (c : List H × List (ℕ → ℝ)) : IsLaw (rnnSampleV net r c n) := by
  induction n generalizing r c with
  | zero => exact isLaw_pure _
  | succ n ih =>
    rw [rnnSampleV]
    refine isLaw_bind ?_ _ fun res => isLaw_bind (ih _ _) _ fun _ => isLaw_pure _
    unfold rnnSampleRow
    exact isLaw_bind (isLaw_rnnSampleH net hh _ _) _ fun _ => isLaw_pure _

theorem supported_rnn1d {H O : Type} (net : Rnn1D H O) (hh : Normed net.head) (L : ℕ) :
    Supported (rnn1dSample net L) fun l => l ∈ listsOver (localStates net.head.inputDim) L := by
  apply supported_of_average (isLaw_rnnSampleScan net hh L _).nonneg
  unfold chance
  rw [average_expect, expect_rnnSampleScan net hh]
  apply List.sum_eq_zero
  intro x hx
  obtain ⟨l, hl, rfl⟩ := List.mem_map.mp hx
  simp [hl]

theorem supported_rnn2d {H O : Type} (net : Rnn2D H O) (hh : Normed net.head) (L : ℕ) :
    Supported (rnn2dSample net L) fun l => l ∈ listsOver (listsOver (localStates net.head.inputDim) L) L := by
  apply supported_of_average (isLaw_rnnSampleV net hh L _ _).nonneg
  unfold chance
  rw [average_expect, expect_rnnSampleV net hh L _ _ _ (by simp) (by simp)]
  apply List.sum_eq_zero
  intro x hx
  obtain ⟨l, hl, rfl⟩ := List.mem_map.mp hx
  simp [hl]

theorem isLaw_randomize {n : ℕ} {orbit : List (Matrix (Fin n) (Fin n) ℤ)} (h : orbit ≠ []) (s : Fin n → ℤ) :
    IsLaw (randomizeSample orbit s) := by
  have hl : (0 : ℝ) < orbit.length := by exact_mod_cast List.length_pos_iff.mpr h
  refine ⟨?_, ?_⟩
  · intro e he
    obtain ⟨o, _, rfl⟩ := List.mem_map.mp he
    positivity
  · unfold average randomizeSample
    rw [List.map_map]
    simp only [Function.comp_def, mul_one, List.map_const', List.sum_replicate, nsmul_eq_mul]
    field_simp

theorem supported_randomize {n : ℕ} {orbit : List (Matrix (Fin n) (Fin n) ℤ)} {D : ℕ} {s : Fin n → ℤ}
    (h : ∀ o ∈ orbit, ValidConfig D (imageOf o s)) : Supported (randomizeSample orbit s) (ValidConfig D) := by
  intro e he _
  obtain ⟨o, ho, rfl⟩ := List.mem_map.mp he
  have := h o ho
  unfold imageOf at this
  simpa only [mul_comm] using this

theorem valid_iff {ι : ℕ} {d : ℕ} [NeZero d] {x : Fin ι → ℤ} (h : ValidConfig d x) :
    ∃ c : Fin ι → Fin d, x = fun i => (c i : ℤ) := by
  refine ⟨decodeEntries d x, ?_⟩
  funext i
  have := h i
  simp only [decodeEntries, Fin.ofNat, Nat.mod_eq_of_lt (show (x i).toNat < d by omega)]
  omega

theorem decodeEntries_cast {ι : Type} {d : ℕ} [NeZero d] (c : ι → Fin d) : decodeEntries d (fun i => (c i : ℤ)) = c := by
  funext i
  simp [decodeEntries]

theorem normSq_exp_sq (z : ℂ) : ‖Complex.exp z‖ ^ 2 = Complex.normSq (Complex.exp z) :=
  (Complex.normSq_eq_norm_sq _).symm

/-- Recurrent networks on square lattices with real parameters and `logProbFactor = 1/2` draw from the Born
distribution. -/
theorem bornLaw_rnn2d {H O : Type} (d : ℕ) [NeZero d] (realValuedOutput : Bool) (dense : O → ℕ → ℝ)
    (cell : H → H → (ℕ → ℝ) → (ℕ → ℝ) → H × O) (zeroCarry : ℕ → H) (L : ℕ) :
    BornLaw (fun c : Fin L → Fin L → Fin d => Complex.exp (rnn2d (latticeNet d realValuedOutput dense cell zeroCarry) L
        (List.ofFn fun i => List.ofFn fun j => (c i j : ℤ))))
      (WDist.map (decodeLattice L d) (rnn2dSample (latticeNet d realValuedOutput dense cell zeroCarry) L)) := by
  have hd : 0 < d := Nat.pos_of_ne_zero (NeZero.ne d)
  set net := latticeNet d realValuedOutput dense cell zeroCarry with hnet
  have hh : Normed net.head := realHead_normed d hd (1 / 2) (by norm_num) realValuedOutput dense
  have hdec : ∀ c : Fin L → Fin L → Fin d, decodeLattice L d (List.ofFn fun i => List.ofFn fun j => (c i j : ℤ)) = c := by
    intro c
    funext i j
    simp [decodeLattice]
  refine bornLaw_of_prob (isLaw_rnnSampleV net hh L _ _)
    (fun c : Fin L → Fin L → Fin d => List.ofFn fun i => List.ofFn fun j => (c i j : ℤ)) _ hdec ?_ _ ?_
  · intro e he h0
    have hl := supported_rnn2d net hh L e he h0
    refine ⟨decodeLattice L d e.1, ?_⟩
    obtain ⟨h1, h2⟩ := mem_listsOver.mp hl
    apply List.ext_getElem
    · simp [h1]
    · intro i hi hi'
      obtain ⟨h3, h4⟩ := mem_listsOver.mp (h2 _ (List.getElem_mem hi))
      apply List.ext_getElem
      · simp [h3]
      · intro j hj hj'
        have := mem_localStates.mp (h4 _ (List.getElem_mem hj))
        simp only [decodeLattice, List.getElem_ofFn]
        rw [List.getD_eq_getElem _ _ hi, List.getD_eq_getElem _ _ hj]
        have hb : (e.1[i][j]).toNat < d := by
          have h5 : net.head.inputDim = d := rfl
          omega
        simp only [Fin.ofNat, Nat.mod_eq_of_lt hb]
        omega
  · intro c
    have h2 := c59_2d_partial d hd (1 / 2) (by norm_num) realValuedOutput dense cell zeroCarry L c
    rw [← normSq_exp_sq]
    refine Eq.trans h2 ?_
    norm_num
    rfl

/-- Symmetrised recurrent networks on chains, with separate averaging: after the random symmetry operation the samples
have the Born distribution of the symmetrised wave function. -/
theorem bornLaw_sym1d {H O : Type} (d : ℕ) [NeZero d] (realValuedOutput : Bool) (dense : O → ℕ → ℝ)
    (cell : H → (ℕ → ℝ) → H × O) (zeroCarry : H) (L : ℕ) (hL : 0 < L) (translation reflection spinflip : Bool)
    (tf rf sf : ℂ) (hsf : spinflip = true → d = 2) :
    let sym := getOrbit1D L translation reflection spinflip tf rf sf
    BornLaw (fun c : Fin L → Fin d => Complex.exp (symNet avgSep
        (fun x => rnn1d (chainNet d realValuedOutput dense cell zeroCarry) (listConfig x)) sym.orbit sym.factor
        fun i => (c i : ℤ)))
      (WDist.map (decodeEntries d) (genSample1D (chainNet d realValuedOutput dense cell zeroCarry) L sym.orbit)) := by
  intro sym
  have : NeZero L := ⟨hL.ne'⟩
  have hd : 0 < d := Nat.pos_of_ne_zero (NeZero.ne d)
  have hg := group1D L translation reflection spinflip tf rf sf
  set net := chainNet d realValuedOutput dense cell zeroCarry with hnet
  have hh : Normed net.head := realHead_normed d hd (1 / 2) (by norm_num) realValuedOutput dense
  refine bornLaw_of_prob ?_ (fun (c : Fin L → Fin d) i => (c i : ℤ)) _ decodeEntries_cast ?_ _ ?_
  · exact isLaw_bind (isLaw_rnnSampleScan net hh L _) _ fun l => isLaw_randomize (List.ne_nil_of_mem hg.one) _
  · have : Supported (genSample1D net L sym.orbit) (ValidConfig d) := by
      refine supported_bind (supported_rnn1d net hh L) fun l hl => supported_randomize fun o ho => ?_
      refine imageOf_valid (hg.signed o ho) ?_ ?_
      · cases hs : spinflip with
        | true => exact Or.inl (hsf hs)
        | false =>
          right
          intro i
          subst hs
          rw [ones_closure _ (ones_1d L hL translation reflection) o ((hg.generated o).mp ho)]
      · obtain ⟨h1, h2⟩ := mem_listsOver.mp hl
        intro i
        have hi : i.val < l.length := by omega
        unfold configList
        rw [List.getD_eq_getElem _ _ hi]
        exact mem_localStates.mp (h2 _ (List.getElem_mem hi))
    exact fun e he h0 => valid_iff (this e he h0)
  · intro c
    rw [← normSq_exp_sq]
    exact c59_sym_1d_partial d hd realValuedOutput dense cell zeroCarry L hL translation reflection spinflip tf rf sf
      hsf (fun i => (c i : ℤ)) fun i => ⟨by positivity, by exact_mod_cast (c i).isLt⟩

/-- The same on square lattices. -/
theorem bornLaw_sym2d {H O : Type} (d : ℕ) [NeZero d] (realValuedOutput : Bool) (dense : O → ℕ → ℝ)
    (cell : H → H → (ℕ → ℝ) → (ℕ → ℝ) → H × O) (zeroCarry : ℕ → H) (L : ℕ) (hL : 0 < L)
    (translation reflection rotation spinflip : Bool) (tf rf qf sf : ℂ) (hsf : spinflip = true → d = 2) :
    let sym := getOrbit2D L translation reflection rotation spinflip tf rf qf sf
    BornLaw (fun c : Fin (L * L) → Fin d => Complex.exp (symNet avgSep
        (fun x => rnn2d (latticeNet d realValuedOutput dense cell zeroCarry) L (rowsConfig x)) sym.orbit sym.factor
        fun i => (c i : ℤ)))
      (WDist.map (decodeEntries d) (genSample2D (latticeNet d realValuedOutput dense cell zeroCarry) L sym.orbit)) := by
  intro sym
  have : NeZero L := ⟨hL.ne'⟩
  have hd : 0 < d := Nat.pos_of_ne_zero (NeZero.ne d)
  have hg := group2D L translation reflection rotation spinflip tf rf qf sf
  set net := latticeNet d realValuedOutput dense cell zeroCarry with hnet
  have hh : Normed net.head := realHead_normed d hd (1 / 2) (by norm_num) realValuedOutput dense
  refine bornLaw_of_prob ?_ (fun (c : Fin (L * L) → Fin d) i => (c i : ℤ)) _ decodeEntries_cast ?_ _ ?_
  · exact isLaw_bind (isLaw_rnnSampleV net hh L _ _) _ fun l => isLaw_randomize (List.ne_nil_of_mem hg.one) _
  · have : Supported (genSample2D net L sym.orbit) (ValidConfig d) := by
      refine supported_bind (supported_rnn2d net hh L) fun l hl => supported_randomize fun o ho => ?_
      refine imageOf_valid (hg.signed o ho) ?_ ?_
      · cases hs : spinflip with
        | true => exact Or.inl (hsf hs)
        | false =>
          right
          intro i
          subst hs
          rw [ones_closure _ (ones_2d L hL translation reflection rotation) o ((hg.generated o).mp ho)]
      · obtain ⟨h1, h2⟩ := mem_listsOver.mp hl
        intro k
        have hi : k.val / L < l.length := by
          rw [h1]
          exact Nat.div_lt_of_lt_mul k.isLt
        obtain ⟨h3, h4⟩ := mem_listsOver.mp (h2 _ (List.getElem_mem hi))
        have hj : k.val % L < (l[k.val / L]).length := by
          rw [h3]
          exact Nat.mod_lt _ hL
        unfold configRows
        rw [List.getD_eq_getElem _ _ hi, List.getD_eq_getElem _ _ hj]
        exact mem_localStates.mp (h4 _ (List.getElem_mem hj))
    exact fun e he h0 => valid_iff (this e he h0)
  · intro c
    rw [← normSq_exp_sq]
    exact c59_sym_2d_partial d hd realValuedOutput dense cell zeroCarry L hL translation reflection rotation spinflip
      tf rf qf sf hsf (fun i => (c i : ℤ)) fun i => ⟨by positivity, by exact_mod_cast (c i).isLt⟩

/-! ## C92 -/

/-- What C92 claims of `N` samples on `s` ranks with `D` devices that are drawn with the given distribution: the mean
that `measure` reports is unbiased, and far from the expectation value only with a probability that decreases as
`1/N`. -/
def EstimatesRight {C : Type} [Fintype C] [DecidableEq C] (kernel : C → List (C × ℂ)) (O : Matrix C C ℂ) (psi : Net C)
    (zeroCfg : C) (b : ℤ) (s D N : ℕ) (sample : WDist C) : Prop :=
  ∃ W n M, genSampleWorld s D N 1 sample psi.val = .ok W ∧ N ≤ n ∧ IsLaw W ∧
    (∀ e ∈ W, ∃ res, measureOp kernel psi zeroCfg b (some n) e.1 = .ok res ∧ res.length = s ∧
      ∀ r ∈ res, r.mean = M e.1) ∧
    average W M = (Spec.expect O fun c => Complex.exp (psi.val c)).re ∧
    ∀ ε > 0, chance W (fun w => ε ≤ |M w - (Spec.expect O fun c => Complex.exp (psi.val c)).re|)
      ≤ spread O (fun c => Complex.exp (psi.val c)) / n / ε ^ 2

theorem estimatesRight_of_born {C : Type} [Fintype C] [DecidableEq C] [Nonempty C] {kernel : C → List (C × ℂ)}
    {O : Matrix C C ℂ} (hk : OperatorOf kernel O) (psi : Net C) (hlog : psi.logarithmic = true) (zeroCfg : C) (b : ℤ)
    (s D N : ℕ) (hs : 0 < s) (hD : 0 < D) (hN : s ≤ N) (sample : WDist C) (logPsi : C → ℂ)
    (hpsi : ∀ c, psi.val c = logPsi c) (hb : BornLaw (fun c => Complex.exp (logPsi c)) sample) :
    EstimatesRight kernel O psi zeroCfg b s D N sample := by
  rw [show (fun c => Complex.exp (logPsi c)) = fun c => Complex.exp (psi.val c) from by simp only [hpsi]] at hb
  obtain ⟨W, n, M, h1, h2, h3, h4, h5, _, _, h6⟩ := c92_mean hk psi hlog zeroCfg b s D N hs hD hN sample hb
  exact ⟨W, n, M, h1, h2, h3, h4, h5, h6⟩

/-- C92 for recurrent networks on square lattices. -/
theorem c92_rnn_2d {H O' : Type} (L d : ℕ) [NeZero d] (realValuedOutput : Bool) (dense : O' → ℕ → ℝ)
    (cell : H → H → (ℕ → ℝ) → (ℕ → ℝ) → H × O') (zeroCarry : ℕ → H)
    {kernel : (Fin L → Fin L → Fin d) → List ((Fin L → Fin L → Fin d) × ℂ)}
    {O : Matrix (Fin L → Fin L → Fin d) (Fin L → Fin L → Fin d) ℂ} (hk : OperatorOf kernel O)
    (psi : Net (Fin L → Fin L → Fin d)) (hlog : psi.logarithmic = true)
    (hpsi : ∀ c, psi.val c = rnn2d (latticeNet d realValuedOutput dense cell zeroCarry) L
      (List.ofFn fun i => List.ofFn fun j => (c i j : ℤ)))
    (zeroCfg : Fin L → Fin L → Fin d) (b : ℤ) (s D N : ℕ) (hs : 0 < s) (hD : 0 < D) (hN : s ≤ N) :
    EstimatesRight kernel O psi zeroCfg b s D N
      (WDist.map (decodeLattice L d) (rnn2dSample (latticeNet d realValuedOutput dense cell zeroCarry) L)) :=
  estimatesRight_of_born hk psi hlog zeroCfg b s D N hs hD hN _ _ hpsi
    (bornLaw_rnn2d d realValuedOutput dense cell zeroCarry L)

/-- C92 for symmetrised recurrent networks on chains, with separate averaging (spin flips: two local states). -/
theorem c92_sym_1d {H O' : Type} (L d : ℕ) [NeZero d] (hL : 0 < L) (realValuedOutput : Bool) (dense : O' → ℕ → ℝ)
    (cell : H → (ℕ → ℝ) → H × O') (zeroCarry : H) (translation reflection spinflip : Bool) (tf rf sf : ℂ)
    (hsf : spinflip = true → d = 2)
    {kernel : (Fin L → Fin d) → List ((Fin L → Fin d) × ℂ)} {O : Matrix (Fin L → Fin d) (Fin L → Fin d) ℂ}
    (hk : OperatorOf kernel O) (psi : Net (Fin L → Fin d)) (hlog : psi.logarithmic = true)
    (hpsi : ∀ c, psi.val c = symNet avgSep
      (fun x => rnn1d (chainNet d realValuedOutput dense cell zeroCarry) (listConfig x))
      (getOrbit1D L translation reflection spinflip tf rf sf).orbit
      (getOrbit1D L translation reflection spinflip tf rf sf).factor fun i => (c i : ℤ))
    (zeroCfg : Fin L → Fin d) (b : ℤ) (s D N : ℕ) (hs : 0 < s) (hD : 0 < D) (hN : s ≤ N) :
    EstimatesRight kernel O psi zeroCfg b s D N
      (WDist.map (decodeEntries d) (genSample1D (chainNet d realValuedOutput dense cell zeroCarry) L
        (getOrbit1D L translation reflection spinflip tf rf sf).orbit)) :=
  estimatesRight_of_born hk psi hlog zeroCfg b s D N hs hD hN _ _ hpsi
    (bornLaw_sym1d d realValuedOutput dense cell zeroCarry L hL translation reflection spinflip tf rf sf hsf)

/-- C92 for symmetrised recurrent networks on square lattices. -/
theorem c92_sym_2d {H O' : Type} (L d : ℕ) [NeZero d] (hL : 0 < L) (realValuedOutput : Bool) (dense : O' → ℕ → ℝ)
    (cell : H → H → (ℕ → ℝ) → (ℕ → ℝ) → H × O') (zeroCarry : ℕ → H)
    (translation reflection rotation spinflip : Bool) (tf rf qf sf : ℂ) (hsf : spinflip = true → d = 2)
    {kernel : (Fin (L * L) → Fin d) → List ((Fin (L * L) → Fin d) × ℂ)}
    {O : Matrix (Fin (L * L) → Fin d) (Fin (L * L) → Fin d) ℂ}
    (hk : OperatorOf kernel O) (psi : Net (Fin (L * L) → Fin d)) (hlog : psi.logarithmic = true)
    (hpsi : ∀ c, psi.val c = symNet avgSep
      (fun x => rnn2d (latticeNet d realValuedOutput dense cell zeroCarry) L (rowsConfig x))
      (getOrbit2D L translation reflection rotation spinflip tf rf qf sf).orbit
      (getOrbit2D L translation reflection rotation spinflip tf rf qf sf).factor fun i => (c i : ℤ))
    (zeroCfg : Fin (L * L) → Fin d) (b : ℤ) (s D N : ℕ) (hs : 0 < s) (hD : 0 < D) (hN : s ≤ N) :
    EstimatesRight kernel O psi zeroCfg b s D N
      (WDist.map (decodeEntries d) (genSample2D (latticeNet d realValuedOutput dense cell zeroCarry) L
        (getOrbit2D L translation reflection rotation spinflip tf rf qf sf).orbit)) :=
  estimatesRight_of_born hk psi hlog zeroCfg b s D N hs hD hN _ _ hpsi
    (bornLaw_sym2d d realValuedOutput dense cell zeroCarry L hL translation reflection rotation spinflip tf rf qf sf hsf)

/-! ## A case -/

/-- The total number of excitations on a square lattice of two by two sites. -/
def countKernel : (Fin (2 * 2) → Fin 2) → List ((Fin (2 * 2) → Fin 2) × ℂ) := fun s => [(s, ((∑ i, (s i : ℕ) : ℕ) : ℂ))]

theorem countKernel_operator :
    OperatorOf countKernel (Matrix.diagonal fun s : Fin (2 * 2) → Fin 2 => ((∑ i, (s i : ℕ) : ℕ) : ℂ)) := by
  refine ⟨?_, ⟨1, fun _ => rfl⟩, ?_⟩
  · intro s s'
    simp only [countKernel, elementOf, List.filter_cons, List.filter_nil]
    by_cases h : s = s'
    · subst h
      simp
    · simp [h]
  · intro s e he
    simp only [countKernel, List.mem_singleton] at he
    subst he
    rcases Nat.eq_zero_or_pos (∑ i, (s i : ℕ)) with h | h
    · left
      simp only [h, Nat.cast_zero]
    · right
      simp only [Complex.norm_natCast]
      have : (1 : ℝ) ≤ ((∑ i, (s i : ℕ) : ℕ) : ℝ) := by exact_mod_cast h
      linarith

/-- A network on a square lattice whose cell adds up what it has seen, symmetrised with all operations including spin
flips: seven samples on two ranks with three devices. -/
example : ∃ psi : Net (Fin (2 * 2) → Fin 2),
    EstimatesRight countKernel (Matrix.diagonal fun s : Fin (2 * 2) → Fin 2 => ((∑ i, (s i : ℕ) : ℕ) : ℂ)) psi 0 5 2 3 7
      (WDist.map (decodeEntries 2) (genSample2D (latticeNet 2 true (fun (o : ℝ) j => o * j)
        (fun h h' x x' => (h + h' + x 1 - x' 1, h + x 0)) fun _ => 0) 2
        (getOrbit2D 2 true true true true 1 1 1 1).orbit)) :=
  ⟨⟨fun c => symNet avgSep (fun x => rnn2d (latticeNet 2 true (fun (o : ℝ) j => o * j)
        (fun h h' x x' => (h + h' + x 1 - x' 1, h + x 0)) fun _ => 0) 2 (rowsConfig x))
        (getOrbit2D 2 true true true true 1 1 1 1).orbit (getOrbit2D 2 true true true true 1 1 1 1).factor
        fun i => (c i : ℤ), true⟩,
    c92_sym_2d 2 2 (by norm_num) true _ _ _ true true true true 1 1 1 1 (fun _ => rfl) countKernel_operator _ rfl
      (fun _ => rfl) 0 5 2 3 7 (by norm_num) (by norm_num) (by norm_num)⟩

end JVMC
