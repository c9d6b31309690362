import Verif.Lemmas.DirectRounding
import Verif.Props.Rnn

/-!
# C136 — rounding errors of direct sampling

The exact network consists of `cell`, `zeroCarry` and `dense`, the computed one of `cell'`, `zeroCarry'` and `dense'`; carries and
outputs may be of different types. `M` is the arithmetic of the machine. `CoeffsWithin a B` says that the coefficients which the two
networks give to the sites of a configuration differ by at most `a`; `B` bounds the exact ones. The bounds are those of
`Spec/DirectRounding`; `prob` and `average` are those of `Spec/Rnn` and `Spec/Statistics`.
-/

namespace JVMC

open Spec

/-- The computed coefficients of all configurations of a chain are near the exact ones. -/
def ChainNear {H O H' O' : Type} (a B : ℝ) (n L : ℕ) (realValuedOutput : Bool) (dense : O → ℕ → ℝ) (dense' : O' → ℕ → ℝ)
    (cell : H → (ℕ → ℝ) → H × O) (zeroCarry : H) (cell' : H' → (ℕ → ℝ) → H' × O') (zeroCarry' : H') : Prop :=
  0 ≤ a ∧ 0 ≤ B ∧ ∀ s : Fin L → Fin n, CoeffsWithin a B ((n - 1) * (if realValuedOutput then 1 else 2)) dense dense'
    (rnnOuts cell n (zeroCarry, fun _ => 0) (listConfig fun i => (s i : ℤ)))
    (rnnOuts cell' n (zeroCarry', fun _ => 0) (listConfig fun i => (s i : ℤ)))

/-- The rows of a configuration of a square lattice. -/
def rowsOf {L n : ℕ} (s : Fin L → Fin L → Fin n) : List (List ℤ) := List.ofFn fun i => List.ofFn fun j => (s i j : ℤ)

/-- The computed coefficients of all configurations of a square lattice are near the exact ones. -/
def SquareNear {H O H' O' : Type} (a B : ℝ) (n L : ℕ) (realValuedOutput : Bool) (dense : O → ℕ → ℝ) (dense' : O' → ℕ → ℝ)
    (net : Rnn2D H O) (net' : Rnn2D H' O') : Prop :=
  0 ≤ a ∧ 0 ≤ B ∧ ∀ s : Fin L → Fin L → Fin n, CoeffsWithin a B ((n - 1) * (if realValuedOutput then 1 else 2)) dense dense'
    (rnnOutsV net 0 ((List.range L).map net.zeroCarry, List.replicate L fun _ => 0) (rowsOf s))
    (rnnOutsV net' 0 ((List.range L).map net'.zeroCarry, List.replicate L fun _ => 0) (rowsOf s))

theorem listsOver_config {n L : ℕ} {x : List ℤ} (hx : x ∈ listsOver (localStates n) L) :
    ∃ s : Fin L → Fin n, x = listConfig fun i => (s i : ℤ) := by
  rw [mem_listsOver] at hx
  obtain ⟨rfl, hx⟩ := hx
  have h : ∀ i : Fin x.length, 0 ≤ x[i] ∧ x[i] < n := fun i => mem_localStates.mp (hx _ (List.getElem_mem _))
  refine ⟨fun i => ⟨x[i].toNat, by have := h i; omega⟩, ?_⟩
  unfold listConfig
  refine List.ext_getElem (by simp) fun i h1 h2 => ?_
  rw [List.getElem_ofFn]
  have := h ⟨i, h1⟩
  simp only [Fin.getElem_fin] at this ⊢
  omega

theorem config_mem {n L : ℕ} (s : Fin L → Fin n) : (listConfig fun i => (s i : ℤ)) ∈ listsOver (localStates n) L :=
  listConfig_mem (D := n) fun i => ⟨by positivity, by exact_mod_cast (s i).isLt⟩

theorem rows_mem {n L : ℕ} (s : Fin L → Fin L → Fin n) : rowsOf s ∈ listsOver (listsOver (localStates n) L) L := by
  rw [mem_listsOver]
  refine ⟨List.length_ofFn, fun y hy => ?_⟩
  obtain ⟨i, rfl⟩ := (List.mem_ofFn' _ _).mp hy
  exact config_mem (s i)

theorem listsOver_rows {n L : ℕ} {x : List (List ℤ)} (hx : x ∈ listsOver (listsOver (localStates n) L) L) :
    ∃ s : Fin L → Fin L → Fin n, x = rowsOf s := by
  rw [mem_listsOver] at hx
  have h : ∀ i : Fin L, ∃ t : Fin L → Fin n, x[i]'(by omega) = listConfig fun j => (t j : ℤ) := fun i =>
    listsOver_config (hx.2 _ (List.getElem_mem _))
  choose s hs using h
  refine ⟨s, List.ext_getElem (by simp [rowsOf, hx.1]) fun i h1 h2 => ?_⟩
  have := hs ⟨i, by omega⟩
  simp only [Fin.getElem_fin] at this
  rw [this]
  simp [rowsOf, listConfig]

theorem config_injective {n L : ℕ} : Function.Injective fun s : Fin L → Fin n => listConfig fun i => (s i : ℤ) := by
  intro s t h
  have := List.ofFn_injective h
  funext i
  exact Fin.ext (by exact_mod_cast congrFun this i)

theorem rows_injective {n L : ℕ} : Function.Injective (rowsOf : (Fin L → Fin L → Fin n) → _) := by
  intro s t h
  have h1 := List.ofFn_injective h
  funext i
  exact config_injective (congrFun h1 i)

section

variable {H O H' O' : Type} {M : Machine} {v w c a B : ℝ}

/-! ## Conditional probabilities -/

/-- C136: the probabilities with which a local state is drawn, given the coefficients. -/
theorem c136_conditional (hM : GoodMachine M v w c) (n : ℕ) (hn : 0 < n) (κ : ℝ) (hκ : κ ≠ 0) (rv : Bool)
    (coeffs coeffs' : ℕ → ℝ) (ha : 0 ≤ a) (hB : 0 ≤ B)
    (h : ∀ k < (n - 1) * (if rv then 1 else 2), |coeffs' k - coeffs k| ≤ a ∧ |coeffs k| ≤ B) :
    ∑ j : Fin n, |prob ((machineHead M n κ rv fun _ : Unit => coeffs').drawM M ()) (j : ℤ) -
      Real.exp (if (j : ℕ) = 0 then 0 else coeffs (j - 1)) /
        ∑ k : Fin n, Real.exp (if (k : ℕ) = 0 then 0 else coeffs (k - 1))| ≤ drawError M.r.u v w a B n c := by
  have hclose := draw_close M hM.v_nonneg hM.v_le hM.w_nonneg hM.u_le hM.exp hM.log hM.draw n hn κ hκ ha hB rv
    (fun _ : Unit => coeffs) (fun _ : Unit => coeffs') (o := ()) (o' := ()) h
  have hc2 : CloseTo Eq (drawError M.r.u v w a B n c) ((realHead n κ rv fun _ : Unit => coeffs).draw ())
      ((machineHead M n κ rv fun _ : Unit => coeffs').drawM M ()) :=
    fun ε F F' h1 h2 h3 => hclose ε F F' h1 h2 fun x y hxy => h3 x y hxy.1
  have := closeTo_sum hc2 (fun j : Fin n => ((j : ℕ) : ℤ)) fun s t hst => Fin.ext (Int.ofNat_inj.mp hst)
  refine le_trans (le_of_eq (Finset.sum_congr rfl fun j _ => ?_)) this
  congr 2
  set x : ℕ → ℝ := fun k => if k = 0 then 0 else coeffs (k - 1) with hx
  rw [prob_eq_expect, expect_draw (realHead_normed n hn κ hκ rv _)]
  change _ = ((localStates n).map fun z : ℤ => _).sum
  have hj : ((j : ℕ) : ℤ) ∈ localStates n := mem_localStates.mpr ⟨by positivity, by exact_mod_cast j.isLt⟩
  rw [sum_indicator (localStates_nodup n) hj, select_oneHot _ _ hj]
  change _ = Real.exp ((logCoeffsToLogProbs n κ rv coeffs _).re / κ)
  rw [logCoeffs_re, mul_div_cancel_left₀ _ hκ, logSoftmax_eq n hn, Real.exp_sub, Real.exp_log
    (Finset.sum_pos (fun _ _ => Real.exp_pos _) ⟨0, Finset.mem_range.mpr hn⟩), Finset.sum_range]
  simp

/-! ## Chains -/

/-- C136: the distribution of the samples of a chain. -/
theorem c136_chain (hM : GoodMachine M v w c) (n : ℕ) (hn : 0 < n) (κ : ℝ) (hκ : κ ≠ 0) (rv : Bool) (dense : O → ℕ → ℝ)
    (dense' : O' → ℕ → ℝ) (cell : H → (ℕ → ℝ) → H × O) (zeroCarry : H) (cell' : H' → (ℕ → ℝ) → H' × O') (zeroCarry' : H') (L : ℕ)
    (h : ChainNear a B n L rv dense dense' cell zeroCarry cell' zeroCarry') :
    let net : Rnn1D H O := ⟨realHead n κ rv dense, cell, zeroCarry⟩
    let net' : Rnn1D H' O' := ⟨machineHead M n κ rv dense', cell', zeroCarry'⟩
    IsLaw (rnn1dSampleM M net' L) ∧
    ∑ s : Fin L → Fin n, |prob (rnn1dSampleM M net' L) (listConfig fun i => (s i : ℤ)) -
      ‖Complex.exp (rnn1d net (listConfig fun i => (s i : ℤ)))‖ ^ (1 / κ)| ≤ L * drawError M.r.u v w a B n c := by
  intro net net'
  refine ⟨rnnSampleScanM_law hM.draw net' hn _ _, ?_⟩
  have hclose := scan_close hM h.1 h.2.1 n hn κ hκ rv dense dense' cell zeroCarry cell' zeroCarry' L (zeroCarry, fun _ => 0)
    (zeroCarry', fun _ => 0) fun x hx => by
      obtain ⟨s, rfl⟩ := listsOver_config hx
      exact h.2.2 s
  refine le_trans (le_of_eq (Finset.sum_congr rfl fun s _ => ?_)) (closeTo_sum hclose _ config_injective)
  rw [← c59_1d_partial n κ hκ rv dense cell zeroCarry L hn s]
  rfl

/-- C136: means over the samples of a chain. -/
theorem c136_chain_means (hM : GoodMachine M v w c) (n : ℕ) (hn : 0 < n) (κ : ℝ) (hκ : κ ≠ 0) (rv : Bool) (dense : O → ℕ → ℝ)
    (dense' : O' → ℕ → ℝ) (cell : H → (ℕ → ℝ) → H × O) (zeroCarry : H) (cell' : H' → (ℕ → ℝ) → H' × O') (zeroCarry' : H') (L : ℕ)
    (h : ChainNear a B n L rv dense dense' cell zeroCarry cell' zeroCarry') (F : List ℤ → ℝ) (K : ℝ) (hK : 0 < K) (hF : ∀ l, |F l| ≤ K) :
    let net : Rnn1D H O := ⟨realHead n κ rv dense, cell, zeroCarry⟩
    let net' : Rnn1D H' O' := ⟨machineHead M n κ rv dense', cell', zeroCarry'⟩
    |average (rnn1dSampleM M net' L) F - ∑ s : Fin L → Fin n, ‖Complex.exp (rnn1d net (listConfig fun i => (s i : ℤ)))‖ ^ (1 / κ) *
      F (listConfig fun i => (s i : ℤ))| ≤ K * (L * drawError M.r.u v w a B n c) := by
  intro net net'
  have hclose := scan_close hM h.1 h.2.1 n hn κ hκ rv dense dense' cell zeroCarry cell' zeroCarry' L (zeroCarry, fun _ => 0)
    (zeroCarry', fun _ => 0) fun x hx => by
      obtain ⟨s, rfl⟩ := listsOver_config hx
      exact h.2.2 s
  have key := closeTo_mean hclose F hK hF
  have e : average (rnn1dSample net L) F = ∑ s : Fin L → Fin n, ‖Complex.exp (rnn1d net (listConfig fun i => (s i : ℤ)))‖ ^ (1 / κ) *
      F (listConfig fun i => (s i : ℤ)) := by
    rw [average_eq_expect, rnn1dSample, expect_rnnSampleScan net (realHead_normed n hn κ hκ rv dense)]
    change _ = ∑ s : Fin L → Fin n, (fun l => ‖Complex.exp (rnn1d net l)‖ ^ (1 / κ) * F l) (List.ofFn fun i => (s i : ℤ))
    rw [sum_listsOver (localStates n) (fun t : Fin n => (t : ℤ)) (sum_localStates n) L
      fun l => ‖Complex.exp (rnn1d net l)‖ ^ (1 / κ) * F l]
    congr 1
    refine List.map_congr_left fun l _ => ?_
    rw [norm_exp_rpow]
    rfl
  rw [← e]
  exact key

/-- C136: the logarithmic amplitudes of a chain. -/
theorem c136_chain_amplitudes (hM : GoodMachine M v w c) (n : ℕ) (hn : 0 < n) (κ : ℝ) (hκ : κ ≠ 0) (rv : Bool) (dense : O → ℕ → ℝ)
    (dense' : O' → ℕ → ℝ) (cell : H → (ℕ → ℝ) → H × O) (zeroCarry : H) (cell' : H' → (ℕ → ℝ) → H' × O') (zeroCarry' : H') (L : ℕ)
    (h : ChainNear a B n L rv dense dense' cell zeroCarry cell' zeroCarry') (s : Fin L → Fin n) :
    let net : Rnn1D H O := ⟨realHead n κ rv dense, cell, zeroCarry⟩
    let net' : Rnn1D H' O' := ⟨machineHead M n κ rv dense', cell', zeroCarry'⟩
    let x := listConfig fun i => (s i : ℤ)
    |(rnn1dM M net' x).re - (rnn1d net x).re| ≤ sumError M.r.u (termError M.r.u v w a B κ n) (|κ| * (2 * B + Real.log n)) L ∧
      |(rnn1dM M net' x).im - (rnn1d net x).im| ≤ sumError M.r.u a B L := by
  intro net net' x
  obtain ⟨hlen, hx⟩ := mem_listsOver.mp (config_mem s)
  have key := amplitude_err hM h.1 h.2.1 n hn κ hκ rv dense dense' (x := x) hx (rnnOuts_length _ _ _ _) (h.2.2 s)
  unfold rnn1dM rnn1d
  rw [rnnScan_terms net _ x hx, rnnScan_terms net' _ x hx]
  rw [show x.length = L from hlen] at key
  exact key

/-- C136: the samples of a chain and the computed amplitudes fit together. -/
theorem c136_chain_consistent (hM : GoodMachine M v w c) (n : ℕ) (hn : 0 < n) (κ : ℝ) (hκ : κ ≠ 0) (rv : Bool) (dense : O → ℕ → ℝ)
    (dense' : O' → ℕ → ℝ) (cell : H → (ℕ → ℝ) → H × O) (zeroCarry : H) (cell' : H' → (ℕ → ℝ) → H' × O') (zeroCarry' : H') (L : ℕ)
    (h : ChainNear a B n L rv dense dense' cell zeroCarry cell' zeroCarry') :
    let net' : Rnn1D H' O' := ⟨machineHead M n κ rv dense', cell', zeroCarry'⟩
    ∑ s : Fin L → Fin n, |prob (rnn1dSampleM M net' L) (listConfig fun i => (s i : ℤ)) -
      ‖Complex.exp (rnn1dM M net' (listConfig fun i => (s i : ℤ)))‖ ^ (1 / κ)| ≤ L * drawError M.r.u v w a B n c +
        (Real.exp (sumError M.r.u (termError M.r.u v w a B κ n) (|κ| * (2 * B + Real.log n)) L / |κ|) - 1) := by
  intro net'
  have h1 := (c136_chain hM n hn κ hκ rv dense dense' cell zeroCarry cell' zeroCarry' L h).2
  have h2 := c136_chain_amplitudes hM n hn κ hκ rv dense dense' cell zeroCarry cell' zeroCarry' L h
  set net : Rnn1D H O := ⟨realHead n κ rv dense, cell, zeroCarry⟩ with hnet
  have hsum : ∑ s : Fin L → Fin n, ‖Complex.exp (rnn1d net (listConfig fun i => (s i : ℤ)))‖ ^ (1 / κ) = 1 :=
    sum_rnn1d net (realHead_normed n hn κ hκ rv dense) L
  set E := sumError M.r.u (termError M.r.u v w a B κ n) (|κ| * (2 * B + Real.log n)) L
  have key : ∀ s : Fin L → Fin n, |‖Complex.exp (rnn1d net (listConfig fun i => (s i : ℤ)))‖ ^ (1 / κ) -
      ‖Complex.exp (rnn1dM M net' (listConfig fun i => (s i : ℤ)))‖ ^ (1 / κ)| ≤
        (Real.exp (E / |κ|) - 1) * ‖Complex.exp (rnn1d net (listConfig fun i => (s i : ℤ)))‖ ^ (1 / κ) := by
    intro s
    have hs := (h2 s).1
    rw [norm_exp_rpow, norm_exp_rpow]
    set p := (rnn1d net (listConfig fun i => (s i : ℤ))).re
    set q := (rnn1dM M net' (listConfig fun i => (s i : ℤ))).re
    have hd : |q / κ - p / κ| ≤ E / |κ| := by
      rw [← sub_div, abs_div]
      exact div_le_div_of_nonneg_right hs (abs_nonneg _)
    have e : Real.exp (p / κ) - Real.exp (q / κ) = -((Real.exp (q / κ - p / κ) - 1) * Real.exp (p / κ)) := by
      rw [sub_mul, ← Real.exp_add, sub_add_cancel]
      ring
    rw [e, abs_neg, abs_mul, abs_of_pos (Real.exp_pos (p / κ))]
    refine mul_le_mul_of_nonneg_right ?_ (Real.exp_pos _).le
    obtain ⟨d1, d2⟩ := abs_le.mp hd
    have a1 := Real.add_one_le_exp (q / κ - p / κ)
    have a2 := Real.add_one_le_exp (E / |κ|)
    rw [abs_le]
    exact ⟨by linarith, by linarith [Real.exp_le_exp.mpr d2]⟩
  calc _ ≤ ∑ s : Fin L → Fin n, (|prob (rnn1dSampleM M net' L) (listConfig fun i => (s i : ℤ)) -
      ‖Complex.exp (rnn1d net (listConfig fun i => (s i : ℤ)))‖ ^ (1 / κ)| +
        (Real.exp (E / |κ|) - 1) * ‖Complex.exp (rnn1d net (listConfig fun i => (s i : ℤ)))‖ ^ (1 / κ)) :=
        Finset.sum_le_sum fun s _ => (abs_sub_le _ _ _).trans (add_le_add le_rfl (key s))
    _ ≤ _ := by
      rw [Finset.sum_add_distrib, ← Finset.mul_sum, hsum, mul_one]
      exact add_le_add h1 le_rfl

/-- C136: samples of a symmetrised network on a chain. -/
theorem c136_chain_sym (hM : GoodMachine M v w c) (n : ℕ) (hn : 0 < n) (rv : Bool) (dense : O → ℕ → ℝ)
    (dense' : O' → ℕ → ℝ) (cell : H → (ℕ → ℝ) → H × O) (zeroCarry : H) (cell' : H' → (ℕ → ℝ) → H' × O') (zeroCarry' : H') (L : ℕ)
    (hL : 0 < L) (h : ChainNear a B n L rv dense dense' cell zeroCarry cell' zeroCarry') (translation reflection spinflip : Bool)
    (tf rf sf : ℂ) (hsf : spinflip = true → n = 2) :
    let net : Rnn1D H O := ⟨realHead n (1 / 2) rv dense, cell, zeroCarry⟩
    let net' : Rnn1D H' O' := ⟨machineHead M n (1 / 2) rv dense', cell', zeroCarry'⟩
    let sym := getOrbit1D L translation reflection spinflip tf rf sf
    ∑ s : Fin L → Fin n, |prob (genSample1DM M net' L sym.orbit) (fun i => (s i : ℤ)) -
      ‖Complex.exp (symNet avgSep (fun x => rnn1d net (listConfig x)) sym.orbit sym.factor fun i => (s i : ℤ))‖ ^ 2|
        ≤ L * drawError M.r.u v w a B n c := by
  intro net net' sym
  have hclose := scan_close hM h.1 h.2.1 n hn (1 / 2) (by norm_num) rv dense dense' cell zeroCarry cell' zeroCarry' L
    (zeroCarry, fun _ => 0) (zeroCarry', fun _ => 0) fun x hx => by
      obtain ⟨s, rfl⟩ := listsOver_config hx
      exact h.2.2 s
  have hne : sym.orbit ≠ [] := by
    have : NeZero L := ⟨hL.ne'⟩
    have hg := group1D L translation reflection spinflip tf rf sf
    intro h0
    have := (hg.generated 1).mpr (Submonoid.one_mem _)
    rw [show (getOrbit1D L translation reflection spinflip tf rf sf).orbit = [] from h0] at this
    simp at this
  have h2 : CloseTo Eq (L * drawError M.r.u v w a B n c + 0) (genSample1D net L sym.orbit) (genSample1DM M net' L sym.orbit) :=
    closeTo_bind hclose (fun _ => randomize_law hne _) (fun _ => randomize_law hne _) fun x y hxy => by
      subst hxy
      exact closeTo_same (randomize_law hne _)
  rw [add_zero] at h2
  refine le_trans (le_of_eq (Finset.sum_congr rfl fun s _ => ?_)) (closeTo_sum h2 (fun s : Fin L → Fin n => fun i => (s i : ℤ)) ?_)
  · rw [← c59_sym_1d_partial n hn rv dense cell zeroCarry L hL translation reflection spinflip tf rf sf hsf (fun i => (s i : ℤ))
      fun i => ⟨by positivity, by exact_mod_cast (s i).isLt⟩]
  · intro s t hst
    funext i
    exact Fin.ext (Int.ofNat_inj.mp (congrFun hst i))

/-! ## Square lattices -/

/-- C136: the distribution of the samples of a square lattice. -/
theorem c136_square (hM : GoodMachine M v w c) (n : ℕ) (hn : 0 < n) (κ : ℝ) (hκ : κ ≠ 0) (rv : Bool) (dense : O → ℕ → ℝ)
    (dense' : O' → ℕ → ℝ) (cell : H → H → (ℕ → ℝ) → (ℕ → ℝ) → H × O) (zeroCarry : ℕ → H)
    (cell' : H' → H' → (ℕ → ℝ) → (ℕ → ℝ) → H' × O') (zeroCarry' : ℕ → H') (L : ℕ) :
    let net : Rnn2D H O := ⟨realHead n κ rv dense, cell, zeroCarry⟩
    let net' : Rnn2D H' O' := ⟨machineHead M n κ rv dense', cell', zeroCarry'⟩
    SquareNear a B n L rv dense dense' net net' →
    IsLaw (rnn2dSampleM M net' L) ∧
    ∑ s : Fin L → Fin L → Fin n, |prob (rnn2dSampleM M net' L) (rowsOf s) - ‖Complex.exp (rnn2d net L (rowsOf s))‖ ^ (1 / κ)|
      ≤ L * (L * drawError M.r.u v w a B n c) := by
  intro net net' h
  refine ⟨rnnSampleVM_law hM.draw net' hn _ _ _, ?_⟩
  have hclose := rowV_close hM h.1 h.2.1 n hn κ hκ rv dense dense' cell zeroCarry cell' zeroCarry' L L 0
    ((List.range L).map zeroCarry, List.replicate L fun _ => 0) ((List.range L).map zeroCarry', List.replicate L fun _ => 0)
    (by simp) (by simp) (by simp) (by simp) fun x hx => by
      obtain ⟨s, rfl⟩ := listsOver_rows hx
      exact h.2.2 s
  refine le_trans (le_of_eq (Finset.sum_congr rfl fun s _ => ?_)) (closeTo_sum hclose _ rows_injective)
  have := c59_2d_partial n hn κ hκ rv dense cell zeroCarry L s
  change |_ - ‖Complex.exp (rnn2d net L (List.ofFn fun i => List.ofFn fun j => (s i j : ℤ)))‖ ^ (1 / κ)| = _
  rw [← this]
  rfl

/-- C136: the logarithmic amplitudes of a square lattice. -/
theorem c136_square_amplitudes (hM : GoodMachine M v w c) (n : ℕ) (hn : 0 < n) (κ : ℝ) (hκ : κ ≠ 0) (rv : Bool) (dense : O → ℕ → ℝ)
    (dense' : O' → ℕ → ℝ) (cell : H → H → (ℕ → ℝ) → (ℕ → ℝ) → H × O) (zeroCarry : ℕ → H)
    (cell' : H' → H' → (ℕ → ℝ) → (ℕ → ℝ) → H' × O') (zeroCarry' : ℕ → H') (L : ℕ) :
    let net : Rnn2D H O := ⟨realHead n κ rv dense, cell, zeroCarry⟩
    let net' : Rnn2D H' O' := ⟨machineHead M n κ rv dense', cell', zeroCarry'⟩
    SquareNear a B n L rv dense dense' net net' → ∀ s : Fin L → Fin L → Fin n,
    |(rnn2dM M net' L (rowsOf s)).re - (rnn2d net L (rowsOf s)).re|
        ≤ sumError M.r.u (termError M.r.u v w a B κ n) (|κ| * (2 * B + Real.log n)) (L * L) ∧
      |(rnn2dM M net' L (rowsOf s)).im - (rnn2d net L (rowsOf s)).im| ≤ sumError M.r.u a B (L * L) := by
  intro net net' h s
  obtain ⟨hlen, hrow⟩ := mem_listsOver.mp (rows_mem s)
  have hx : ∀ y ∈ (rowsOf s).flatten, y ∈ localStates n := by
    intro y hy
    obtain ⟨row, hr, hy⟩ := List.mem_flatten.mp hy
    exact (mem_listsOver.mp (hrow row hr)).2 y hy
  have hflat : (rowsOf s).flatten.length = L * L := by
    simp [rowsOf, List.length_flatten, List.map_ofFn, Function.comp_def]
  have key := amplitude_err hM h.1 h.2.1 n hn κ hκ rv dense dense' (x := (rowsOf s).flatten) hx
    (rnnOutsV_length net L 0 _ (by simp) (by simp) _ fun row hr => (mem_listsOver.mp (hrow row hr)).1) (h.2.2 s)
  unfold rnn2dM rnn2d
  rw [rnnScanV_terms net L 0 _ (by simp) (by simp) _ hrow, rnnScanV_terms net' L 0 _ (by simp) (by simp) _ hrow]
  rw [hflat] at key
  exact key

/-- C136: samples of a symmetrised network on a square lattice. -/
theorem c136_square_sym (hM : GoodMachine M v w c) (n : ℕ) (hn : 0 < n) (rv : Bool) (dense : O → ℕ → ℝ)
    (dense' : O' → ℕ → ℝ) (cell : H → H → (ℕ → ℝ) → (ℕ → ℝ) → H × O) (zeroCarry : ℕ → H)
    (cell' : H' → H' → (ℕ → ℝ) → (ℕ → ℝ) → H' × O') (zeroCarry' : ℕ → H') (L : ℕ) (hL : 0 < L)
    (translation reflection rotation spinflip : Bool) (tf rf qf sf : ℂ) (hsf : spinflip = true → n = 2) :
    let net : Rnn2D H O := ⟨realHead n (1 / 2) rv dense, cell, zeroCarry⟩
    let net' : Rnn2D H' O' := ⟨machineHead M n (1 / 2) rv dense', cell', zeroCarry'⟩
    let sym := getOrbit2D L translation reflection rotation spinflip tf rf qf sf
    SquareNear a B n L rv dense dense' net net' →
    ∑ s : Fin (L * L) → Fin n, |prob (genSample2DM M net' L sym.orbit) (fun i => (s i : ℤ)) -
      ‖Complex.exp (symNet avgSep (fun x => rnn2d net L (rowsConfig x)) sym.orbit sym.factor fun i => (s i : ℤ))‖ ^ 2|
        ≤ L * (L * drawError M.r.u v w a B n c) := by
  intro net net' sym h
  have hclose := rowV_close hM h.1 h.2.1 n hn (1 / 2) (by norm_num) rv dense dense' cell zeroCarry cell' zeroCarry' L L 0
    ((List.range L).map zeroCarry, List.replicate L fun _ => 0) ((List.range L).map zeroCarry', List.replicate L fun _ => 0)
    (by simp) (by simp) (by simp) (by simp) fun x hx => by
      obtain ⟨s, rfl⟩ := listsOver_rows hx
      exact h.2.2 s
  have hne : sym.orbit ≠ [] := by
    have : NeZero L := ⟨hL.ne'⟩
    have hg := group2D L translation reflection rotation spinflip tf rf qf sf
    intro h0
    have := (hg.generated 1).mpr (Submonoid.one_mem _)
    rw [show (getOrbit2D L translation reflection rotation spinflip tf rf qf sf).orbit = [] from h0] at this
    simp at this
  have h2 : CloseTo Eq (L * (L * drawError M.r.u v w a B n c) + 0) (genSample2D net L sym.orbit) (genSample2DM M net' L sym.orbit) :=
    closeTo_bind hclose (fun _ => randomize_law hne _) (fun _ => randomize_law hne _) fun x y hxy => by
      subst hxy
      exact closeTo_same (randomize_law hne _)
  rw [add_zero] at h2
  refine le_trans (le_of_eq (Finset.sum_congr rfl fun s _ => ?_)) (closeTo_sum h2 (fun s : Fin (L * L) → Fin n => fun i => (s i : ℤ)) ?_)
  · rw [← c59_sym_2d_partial n hn rv dense cell zeroCarry L hL translation reflection rotation spinflip tf rf qf sf hsf
      (fun i => (s i : ℤ)) fun i => ⟨by positivity, by exact_mod_cast (s i).isLt⟩]
  · intro s t hst
    funext i
    exact Fin.ext (Int.ofNat_inj.mp (congrFun hst i))

end

/-! ## A machine -/

/-- Draws with the exact probabilities. -/
theorem drawWithin_categorical : DrawWithin 0 categorical := by
  intro n logits hn
  have hZ : 0 < ∑ k ∈ Finset.range n, Real.exp (logits k) :=
    Finset.sum_pos (fun _ _ => Real.exp_pos _) ⟨0, Finset.mem_range.mpr hn⟩
  refine ⟨⟨?_, ?_⟩, ?_, ?_⟩
  · intro e he
    obtain ⟨j, _, rfl⟩ := List.mem_map.mp he
    positivity
  · unfold average categorical
    rw [List.map_map]
    simp only [Function.comp_def, mul_one]
    rw [sum_map_range, ← Finset.sum_div, div_self hZ.ne']
  · intro e he
    obtain ⟨j, hj, rfl⟩ := List.mem_map.mp he
    exact ⟨by positivity, Int.ofNat_lt.mpr (List.mem_range.mp hj)⟩
  · refine le_of_eq (Finset.sum_eq_zero fun j hj => ?_)
    rw [abs_eq_zero, sub_eq_zero]
    have e : prob (categorical n logits) (j : ℤ) = ((List.range n).map fun k : ℕ =>
        (Real.exp (logits k) / ∑ k ∈ Finset.range n, Real.exp (logits k)) * if k = j then 1 else 0).sum := by
      unfold prob categorical
      rw [List.map_map]
      congr 1
      refine List.map_congr_left fun k _ => ?_
      simp only [Function.comp_apply, Int.ofNat_inj]
      split_ifs <;> simp
    rw [e, sum_map_range, Finset.sum_eq_single j]
    · simp
    · intro b _ hb
      simp [hb]
    · intro hj'
      exact absurd hj hj'

/-- Double precision with correctly rounded functions. -/
noncomputable def doubleMachine : Machine where
  r := Rounding.double
  exp := fun x => roundDouble (Real.exp x)
  log := fun x => roundDouble (Real.log x)
  sum := fun l => Classical.choose (sums_exists Rounding.double l)
  sum_ok := fun l => Classical.choose_spec (sums_exists Rounding.double l)
  draw := categorical

theorem doubleMachine_good : GoodMachine doubleMachine ((2 : ℝ) ^ (-53 : ℤ)) ((2 : ℝ) ^ (-53 : ℤ)) 0 where
  v_nonneg := by positivity
  v_le := by norm_num
  w_nonneg := by positivity
  u_le := by
    change (2 : ℝ) ^ (-53 : ℤ) ≤ 1 / 2
    norm_num
  exp := fun x => by
    have := roundDouble_err (Real.exp x)
    rwa [abs_of_pos (Real.exp_pos x)] at this
  log := fun x _ => roundDouble_err _
  draw := drawWithin_categorical

/-- A network that counts the ones and whose coefficients are sines of the count, and the same network in double precision. -/
theorem sineNet_near (L : ℕ) : ChainNear ((2 : ℝ) ^ (-53 : ℤ)) 1 2 L true (fun (o : ℝ) _ => Real.sin o)
    (fun (o : ℝ) _ => roundDouble (Real.sin o)) (fun c x => (c + x 1, c + x 1)) 0 (fun c x => (c + x 1, c + x 1)) 0 := by
  refine ⟨by positivity, by norm_num, fun s => ?_⟩
  unfold CoeffsWithin
  rw [List.forall₂_same]
  intro o _ k _
  refine ⟨(roundDouble_err _).trans ?_, Real.abs_sin_le_one _⟩
  exact mul_le_of_le_one_right (by positivity) (Real.abs_sin_le_one _)

theorem drawError_double : drawError ((2 : ℝ) ^ (-53 : ℤ)) ((2 : ℝ) ^ (-53 : ℤ)) ((2 : ℝ) ^ (-53 : ℤ)) ((2 : ℝ) ^ (-53 : ℤ)) 1 2 0
    ≤ (2 : ℝ) ^ (-46 : ℤ) := by
  have hlog0 : 0 ≤ Real.log 2 := Real.log_nonneg (by norm_num)
  have hlog : Real.log 2 ≤ 1 := by
    have := Real.log_le_sub_one_of_pos (by norm_num : (0 : ℝ) < 2)
    linarith
  have hlt : logitError ((2 : ℝ) ^ (-53 : ℤ)) ((2 : ℝ) ^ (-53 : ℤ)) ((2 : ℝ) ^ (-53 : ℤ)) ((2 : ℝ) ^ (-53 : ℤ)) 1 2
      ≤ (2 : ℝ) ^ (-48 : ℤ) := by
    unfold logitError softmaxError lseError
    push_cast
    generalize Real.log 2 = l at *
    norm_num
    linarith
  have h0 : 2 * logitError ((2 : ℝ) ^ (-53 : ℤ)) ((2 : ℝ) ^ (-53 : ℤ)) ((2 : ℝ) ^ (-53 : ℤ)) ((2 : ℝ) ^ (-53 : ℤ)) 1 2
      ≤ (2 : ℝ) ^ (-47 : ℤ) := by
    norm_num at hlt ⊢
    linarith
  unfold drawError
  have h1 := Real.exp_le_exp.mpr h0
  have h2 := Real.exp_bound_div_one_sub_of_interval (x := (2 : ℝ) ^ (-47 : ℤ)) (by positivity) (by norm_num)
  have h3 : 1 / (1 - (2 : ℝ) ^ (-47 : ℤ)) ≤ 1 + (2 : ℝ) ^ (-46 : ℤ) := by norm_num
  have h4 := h1.trans (h2.trans h3)
  rw [add_zero]
  exact sub_le_iff_le_add'.mpr h4

/-- 1000 sites: the distribution of the samples is exact up to less than `10⁻¹⁰`. -/
example : ∑ s : Fin 1000 → Fin 2, |prob (rnn1dSampleM doubleMachine
      ⟨machineHead doubleMachine 2 (1 / 2) true (fun (o : ℝ) _ => roundDouble (Real.sin o)), fun c x => (c + x 1, c + x 1), 0⟩ 1000)
        (listConfig fun i => (s i : ℤ)) -
      ‖Complex.exp (rnn1d ⟨realHead 2 (1 / 2) true (fun (o : ℝ) _ => Real.sin o), fun c x => (c + x 1, c + x 1), (0 : ℝ)⟩
        (listConfig fun i => (s i : ℤ)))‖ ^ (1 / (1 / 2 : ℝ))| ≤ 1 / 10 ^ 10 := by
  refine (c136_chain doubleMachine_good 2 (by norm_num) (1 / 2) (by norm_num) true _ _ _ _ _ _ 1000 (sineNet_near 1000)).2.trans ?_
  refine (mul_le_mul_of_nonneg_left drawError_double (by positivity)).trans ?_
  norm_num

theorem rnnOutsV_head {H O : Type} (h h' : RnnHead O) (hh : h.inputDim = h'.inputDim) (cell : H → H → (ℕ → ℝ) → (ℕ → ℝ) → H × O)
    (z : ℕ → H) (r : ℕ) (carry : List H × List (ℕ → ℝ)) (x : List (List ℤ)) :
    rnnOutsV ⟨h, cell, z⟩ r carry x = rnnOutsV ⟨h', cell, z⟩ r carry x := by
  have hscan : ∀ (c : H) (l : List (H × (ℕ → ℝ) × (ℕ → ℝ))),
      rnnScanH (⟨h, cell, z⟩ : Rnn2D H O) c l = rnnScanH (⟨h', cell, z⟩ : Rnn2D H O) c l := by
    intro c l
    induction l generalizing c with
    | nil => rfl
    | cons y l ih => rw [rnnScanH, rnnScanH, ih]
  induction x generalizing r carry with
  | nil => rfl
  | cons y x ih =>
    rw [rnnOutsV, rnnOutsV]
    simp only [hscan, hh, ih]

/-- The same for a square lattice: 30 × 30 sites. -/
example : ∑ s : Fin 30 → Fin 30 → Fin 2, |prob (rnn2dSampleM doubleMachine
      ⟨machineHead doubleMachine 2 (1 / 2) true (fun (o : ℝ) _ => roundDouble (Real.sin o)),
        fun c d x y => (c + d + x 1 + y 1, c + d + x 1 + y 1), fun _ => 0⟩ 30) (rowsOf s) -
      ‖Complex.exp (rnn2d ⟨realHead 2 (1 / 2) true (fun (o : ℝ) _ => Real.sin o),
        fun c d x y => (c + d + x 1 + y 1, c + d + x 1 + y 1), fun _ => 0⟩ 30 (rowsOf s))‖ ^ (1 / (1 / 2 : ℝ))| ≤ 1 / 10 ^ 10 := by
  refine (c136_square doubleMachine_good 2 (by norm_num) (1 / 2) (by norm_num) true (fun (o : ℝ) _ => Real.sin o) _ _ _ _ _ 30
    (a := (2 : ℝ) ^ (-53 : ℤ)) (B := 1) ⟨by positivity, by norm_num, fun s => ?_⟩).2.trans ?_
  · unfold CoeffsWithin
    rw [rnnOutsV_head (machineHead doubleMachine 2 (1 / 2) true fun (o : ℝ) _ => roundDouble (Real.sin o))
      (realHead 2 (1 / 2) true fun (o : ℝ) _ => Real.sin o) rfl, List.forall₂_same]
    intro o _ k _
    refine ⟨(roundDouble_err _).trans ?_, Real.abs_sin_le_one _⟩
    exact mul_le_of_le_one_right (by positivity) (Real.abs_sin_le_one _)
  · refine (mul_le_mul_of_nonneg_left (mul_le_mul_of_nonneg_left drawError_double (by positivity)) (by positivity)).trans ?_
    norm_num

end JVMC
