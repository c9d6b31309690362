import Mathlib.Tactic.IntervalCases
import Mathlib.Analysis.SpecialFunctions.Trigonometric.DerivHyp
import Verif.Lemmas.RnnCells
import Verif.Spec.RnnGates

/-!
# C90 — what recurrent networks compute; C91 — invalid arguments
-/

namespace JVMC

open Spec

variable {K : Type} [RCLike K] {D H : ℕ}

/-! ## Chains -/

/-- The configuration as the list that is passed to the network. -/
def chainInput {L : ℕ} (s : Fin L → Fin D) : List ℤ := List.ofFn fun t => ((s t : ℕ) : ℤ)

theorem oneHot_unit {L : ℕ} (s : Fin L → Fin D) (t : ℕ) (i : Fin D) :
    (((((chainInput s).map (oneHot D)).getD t 0) i : ℝ) : K) = unit s t i := by
  unfold unit chainInput
  by_cases ht : t < L
  · rw [List.getD_eq_getElem _ _ (by simpa using ht)]
    simp only [List.getElem_map, List.getElem_ofFn]
    unfold oneHot
    by_cases h : s ⟨t, ht⟩ = i
    · rw [if_pos ⟨i.isLt, by rw [h]⟩, if_pos ⟨ht, h⟩]
      simp
    · rw [if_neg, if_neg]
      · simp
      · rintro ⟨_, h'⟩
        exact h h'
      · rintro ⟨_, h'⟩
        exact h (Fin.ext (by exact_mod_cast h'.symm))
  · rw [List.getD_eq_default _ _ (by simpa using ht), if_neg]
    · simp
    · rintro ⟨h, _⟩
      exact ht h

/-- Layers and times of a stack, for all cells. -/
theorem stack_unrolled (act : K → K) (win : Fin D → Fin H → K) (depth : ℕ) (cells : ℕ → CellFn K H)
    (zero : Rows K H) (head : RnnHead (Fin H → K)) (hD : head.inputDim = D) {L : ℕ} (s : Fin L → Fin D) :
    ∃ (C : ℕ → ℕ → Rows K H) (R : ℕ → ℕ → Fin H → K),
      (∀ t j, R 0 t j = act (rowTimes (before 0 (unit s) t) win j)) ∧
      (∀ l < depth, ∀ t, (C l t, R (l + 1) t) = cells l (before zero (C l) t) (R l t)) ∧
      rnn1d ⟨head, stackCall act win ((List.range depth).map cells), List.replicate depth zero⟩ (chainInput s)
        = ∑ t : Fin L, head.logProbs (R depth t) (s t) := by
  set net : Rnn1D (List (Rows K H)) (Fin H → K) :=
    ⟨head, stackCall act win ((List.range depth).map cells), List.replicate depth zero⟩ with hnet
  set X : ℕ → ℕ → ℝ := fun t => ((chainInput s).map (oneHot D)).getD t 0 with hX
  set G := unroll net.cell net.zeroCarry (fun _ => 0) X with hG
  set P : ℕ → List (Rows K H) := before (List.replicate depth zero) fun t => (G t).1 with hP
  have hstep : ∀ t, G t = stackCall act win ((List.range depth).map cells) (P t) (before (fun _ => 0) X t) := by
    intro t
    cases t with
    | zero => rfl
    | succ t => rfl
  have hin : ∀ t, (fun i : Fin D => ((before (fun _ => 0) X t i : ℝ) : K)) = before 0 (unit s) t := by
    intro t
    funext i
    unfold before
    by_cases h0 : t = 0
    · simp [h0]
    · rw [if_neg h0, if_neg h0]
      exact oneHot_unit s (t - 1) i
  have hlen : ∀ t, (P t).length = depth := by
    intro t
    induction t with
    | zero => simp [hP, before]
    | succ t ih =>
      have : P (t + 1) = (G t).1 := rfl
      rw [this, hstep, stackCall_eq _ _ _ _ _ ih]
      simp
  set R : ℕ → ℕ → Fin H → K := fun l t => between cells (fun l => (P t).getD l [])
    (fun j => act (rowTimes (before 0 (unit s) t) win j)) l with hR
  have hval : ∀ t, G t = ((List.range depth).map fun l => (cells l ((P t).getD l []) (R l t)).1, R depth t) := by
    intro t
    rw [hstep, stackCall_eq _ _ _ _ _ (hlen t), hin]
  set C : ℕ → ℕ → Rows K H := fun l t => (cells l ((P t).getD l []) (R l t)).1 with hC
  have hprev : ∀ l < depth, ∀ t, (P t).getD l [] = before zero (C l) t := by
    intro l hl t
    cases t with
    | zero => simp [hP, before, hl]
    | succ t =>
      have : P (t + 1) = (G t).1 := rfl
      rw [this, hval, List.getD_eq_getElem _ _ (by simpa using hl)]
      simp [before, hC]
  refine ⟨C, R, fun t j => rfl, fun l hl t => ?_, ?_⟩
  · rw [← hprev l hl t]
    rfl
  · unfold rnn1d
    rw [rnnScan_unroll]
    have : net.head.inputDim = D := hD
    rw [this]
    simp only [List.length_map]
    rw [show (chainInput s).length = L by simp [chainInput]]
    rw [← List.sum_ofFn]
    congr 1
    apply List.ext_getElem
    · simp
    · intro t h1 h2
      have ht : t < L := by simpa using h1
      simp only [List.getElem_map, List.getElem_range, List.getElem_ofFn]
      change head.select (G t).2 _ = _
      rw [hval, List.getD_eq_getElem _ _ (by simpa [chainInput] using ht)]
      simp only [List.getElem_map, chainInput, List.getElem_ofFn]
      have hs := select_oneHot head (R depth t) (x := ((s ⟨t, ht⟩ : ℕ) : ℤ)) (by
        rw [mem_localStates, hD]
        exact ⟨by omega, by exact_mod_cast (s ⟨t, ht⟩).isLt⟩)
      rw [hD] at hs
      simpa using hs

/-- C90: hidden states of `cell="RNN"` on a chain. -/
theorem c90_hidden_1d (g : GateFns K) (act : K → K) (w : RnnWeights K D H) (depth : ℕ)
    (head : RnnHead (Fin H → K)) (hD : head.inputDim = D) {L : ℕ} (s : Fin L → Fin D) :
    ∃ net h, setupRnn1D g act w depth (.name "RNN") head = .ok net ∧
      Vanilla act w.win w.rnn depth (unit s) h ∧
      rnn1d net (chainInput s) = ∑ t : Fin L, head.logProbs (h depth t) (s t) := by
  obtain ⟨C, R, h0, h1, h2⟩ := stack_unrolled act w.win depth (fun l => rnnCell act (w.rnn l)) [0] head hD s
  refine ⟨_, R, rfl, ⟨h0, fun l hl t j => ?_⟩, h2⟩
  have hC : ∀ t, C l t = [R (l + 1) t] := by
    intro t
    have := h1 l hl t
    rw [rnnCell, Prod.mk.injEq] at this
    rw [this.1, this.2]
    rfl
  have := congrFun (congrArg Prod.snd (h1 l hl t)) j
  rw [rnnCell] at this
  have hb : (before [0] (C l) t).getD 0 0 = before 0 (R (l + 1)) t := by
    unfold before
    by_cases ht : t = 0
    · simp [ht]
    · simp [ht, hC]
  simp only [List.getD_cons_zero] at this
  rw [this, hb]
  rfl

/-- The head with real parameters in closed form. -/
theorem realHead_condAmplitude {F : ℕ} (hD : 0 < D) (κ : ℝ) (rvo : Bool) (wo : Fin H → Fin F → ℝ) (bo : Fin F → ℝ)
    (o : Fin H → ℝ) (j : Fin D) :
    (realHead D κ rvo (outputDense wo bo)).logProbs o j = condAmplitude κ (!rvo) (affine wo bo o) j := by
  have ha : outputDense wo bo o = affine wo bo o := rfl
  unfold realHead condAmplitude condLog
  dsimp only
  unfold logCoeffsToLogProbs
  dsimp only
  rw [ha, logSoftmax_eq D hD]
  congr 1
  · congr 3
    rw [Finset.sum_range]
  · cases rvo
    · simp
    · simp

/-- C90, `cell="RNN"`: for real parameters, the logarithmic amplitude of a chain is the sum of the
conditional ones, computed from the last layer of the deep vanilla network. -/
theorem c90_rnn_1d (hD : 0 < D) (act : ℝ → ℝ) (w : RnnWeights ℝ D H) (depth : ℕ) (κ : ℝ) (rvo : Bool) {F : ℕ}
    (wo : Fin H → Fin F → ℝ) (bo : Fin F → ℝ) {L : ℕ} (s : Fin L → Fin D) :
    ∃ net h, setupRnn1D realGates act w depth (.name "RNN") (realHead D κ rvo (outputDense wo bo)) = .ok net ∧
      Vanilla act w.win w.rnn depth (unit s) h ∧
      rnn1d net (chainInput s) = ∑ t : Fin L, condAmplitude κ (!rvo) (affine wo bo (h depth t)) (s t) := by
  obtain ⟨net, h, h1, h2, h3⟩ := c90_hidden_1d realGates act w depth (realHead D κ rvo (outputDense wo bo)) rfl s
  refine ⟨net, h, h1, h2, ?_⟩
  rw [h3]
  exact Finset.sum_congr rfl fun t _ => realHead_condAmplitude hD κ rvo wo bo _ _

/-- C90: the hidden states are determined by the past. Two configurations which agree before site `t`
have the same hidden states at `t`. -/
theorem c90_causal_1d (act : K → K) (win : Fin D → Fin H → K) (w : ℕ → Fin H → Fin H → K) (depth : ℕ)
    (x x' : ℕ → Fin D → K) (h h' : ℕ → ℕ → Fin H → K) (hh : Vanilla act win w depth x h)
    (hh' : Vanilla act win w depth x' h') (t : ℕ) (hx : ∀ t' < t, x t' = x' t') :
    ∀ l ≤ depth, h l t = h' l t := by
  induction t with
  | zero =>
    intro l
    induction l with
    | zero => intro _; funext j; rw [hh.input, hh'.input]; rfl
    | succ l ih =>
      intro hl
      funext j
      rw [hh.layer l hl, hh'.layer l hl, ih (by omega)]
      rfl
  | succ t iht =>
    intro l
    induction l with
    | zero =>
      intro _
      funext j
      rw [hh.input, hh'.input]
      simp only [before, Nat.add_eq_zero_iff, one_ne_zero, and_false, if_false, Nat.add_sub_cancel]
      rw [hx t (by omega)]
    | succ l ih =>
      intro hl
      funext j
      rw [hh.layer l hl, hh'.layer l hl, ih (by omega)]
      simp only [before, Nat.add_eq_zero_iff, one_ne_zero, and_false, if_false, Nat.add_sub_cancel]
      rw [iht (fun t' ht' => hx t' (by omega)) (l + 1) hl]

/-! ## Gated cells -/

/-- C90, `cell="GRU"` on a chain. -/
theorem c90_gru_1d (hD : 0 < D) (act : ℝ → ℝ) (w : RnnWeights ℝ D H) (depth : ℕ) (κ : ℝ) (rvo : Bool) {F : ℕ}
    (wo : Fin H → Fin F → ℝ) (bo : Fin F → ℝ) {L : ℕ} (s : Fin L → Fin D) :
    ∃ net h, setupRnn1D realGates act w depth (.name "GRU") (realHead D κ rvo (outputDense wo bo)) = .ok net ∧
      GruNet act w.win w.gru depth (unit s) h ∧
      rnn1d net (chainInput s) = ∑ t : Fin L, condAmplitude κ (!rvo) (affine wo bo (h depth t)) (s t) := by
  obtain ⟨C, R, h0, h1, h2⟩ := stack_unrolled act w.win depth (fun l => gruCell realGates (w.gru l)) [0]
    (realHead D κ rvo (outputDense wo bo)) rfl s
  have hlen : ∀ l < depth, ∀ t, (C l t).length = 1 := by
    intro l hl t
    have := congrArg Prod.fst (h1 l hl t)
    rw [gruCell] at this
    dsimp only at this
    rw [this, List.length_map]
    cases t with
    | zero => rfl
    | succ t =>
      induction t with
      | zero =>
        have := congrArg Prod.fst (h1 l hl 0)
        rw [gruCell] at this
        dsimp only at this
        change (C l 0).length = 1
        rw [this, List.length_map]
        rfl
      | succ t ih =>
        change (C l (t + 1)).length = 1
        have := congrArg Prod.fst (h1 l hl (t + 1))
        rw [gruCell] at this
        dsimp only at this
        rw [this, List.length_map]
        exact ih (congrArg Prod.fst (h1 l hl (t + 1)))
  have hC : ∀ l < depth, ∀ t, C l t = [R (l + 1) t] := by
    intro l hl t
    obtain ⟨a, ha⟩ := List.length_eq_one_iff.mp (hlen l hl t)
    have e := h1 l hl t
    rw [gruCell, Prod.mk.injEq] at e
    rw [e.2, ← e.1, ha]
    rfl
  refine ⟨_, R, rfl, ⟨h0, fun l hl t => ?_⟩, ?_⟩
  · have hb : before [0] (C l) t = [before 0 (R (l + 1)) t] := by
      unfold before
      by_cases ht : t = 0
      · simp [ht]
      · simp [ht, hC l hl]
    have e := congrArg Prod.snd (h1 l hl t)
    rw [gruCell, hb] at e
    dsimp only at e
    rw [e]
    rfl
  · refine h2.trans ?_
    exact Finset.sum_congr rfl fun t _ => realHead_condAmplitude hD κ rvo wo bo _ _

theorem lstm_spec (p : LstmParams ℝ H) (c h x : Fin H → ℝ) :
    lstm realGates p c h x = (lstmMemory p c h x, fun j => lstmOut p h x j * Real.tanh (lstmMemory p c h x j)) := by
  unfold lstm lstmMemory lstmOut
  simp only [add_assoc]
  rfl

/-- C90, `cell="LSTM"` on a chain. -/
theorem c90_lstm_1d (hD : 0 < D) (act : ℝ → ℝ) (w : RnnWeights ℝ D H) (depth : ℕ) (κ : ℝ) (rvo : Bool) {F : ℕ}
    (wo : Fin H → Fin F → ℝ) (bo : Fin F → ℝ) {L : ℕ} (s : Fin L → Fin D) :
    ∃ net m h, setupRnn1D realGates act w depth (.name "LSTM") (realHead D κ rvo (outputDense wo bo)) = .ok net ∧
      LstmNet act w.win w.lstm depth (unit s) m h ∧
      rnn1d net (chainInput s) = ∑ t : Fin L, condAmplitude κ (!rvo) (affine wo bo (h depth t)) (s t) := by
  obtain ⟨C, R, h0, h1, h2⟩ := stack_unrolled act w.win depth (fun l => lstmCell realGates (w.lstm l)) [0, 0]
    (realHead D κ rvo (outputDense wo bo)) rfl s
  have hC : ∀ l < depth, ∀ t, (C l t).getD 1 0 = R (l + 1) t := by
    intro l hl t
    have e := h1 l hl t
    rw [lstmCell, Prod.mk.injEq] at e
    rw [e.1, e.2]
    rfl
  refine ⟨_, fun l t => (C l t).getD 0 0, R, rfl, ⟨h0, fun l hl t => ?_⟩, ?_⟩
  · have hb0 : (before [0, 0] (C l) t).getD 0 0 = before 0 (fun t => (C l t).getD 0 0) t := by
      unfold before
      by_cases ht : t = 0
      · simp [ht]
      · simp [ht]
    have hb1 : (before [0, 0] (C l) t).getD 1 0 = before 0 (R (l + 1)) t := by
      unfold before
      by_cases ht : t = 0
      · simp [ht]
      · simp only [ht, if_false]
        exact hC l hl _
    have e := h1 l hl t
    rw [lstmCell, hb0, hb1, lstm_spec, Prod.mk.injEq] at e
    dsimp only at e
    have e0 : (C l t).getD 0 0 = lstmMemory (w.lstm l) (before 0 (fun t => (C l t).getD 0 0) t)
        (before 0 (R (l + 1)) t) (R l t) := by
      rw [e.1]
      rfl
    refine ⟨e0, ?_⟩
    rw [e.2, e0]
  · refine h2.trans ?_
    exact Finset.sum_congr rfl fun t _ => realHead_condAmplitude hD κ rvo wo bo _ _

theorem sigma_mem (x : ℝ) : 0 < sigma x ∧ sigma x < 1 := by
  unfold sigma
  have := Real.exp_pos (-x)
  constructor
  · positivity
  · rw [div_lt_one (by linarith)]
    linarith

/-- C90: the hidden states of GRU cells never leave `[-1, 1]`, whatever the weights and the length of the
chain. -/
theorem c90_gru_bounded (act : ℝ → ℝ) (win : Fin D → Fin H → ℝ) (p : ℕ → GruParams ℝ H) (depth : ℕ)
    (x : ℕ → Fin D → ℝ) (h : ℕ → ℕ → Fin H → ℝ) (hh : GruNet act win p depth x h) (l : ℕ) (hl : l < depth)
    (t : ℕ) (j : Fin H) : |h (l + 1) t j| ≤ 1 := by
  have key : ∀ t, (∀ j, |before 0 (h (l + 1)) t j| ≤ 1) → ∀ j, |h (l + 1) t j| ≤ 1 := by
    intro t hb j
    rw [hh.layer l hl t]
    dsimp only [gruStep]
    set z := sigma _ with hz
    set n := Real.tanh _ with hn
    have z1 := sigma_mem (rowTimes (h l t) (p l).iz j + (p l).biz j
      + rowTimes (before 0 (h (l + 1)) t) (p l).hz j)
    have n1 : |n| ≤ 1 := by
      rw [hn, abs_le]
      exact ⟨(Real.neg_one_lt_tanh _).le, (Real.tanh_lt_one _).le⟩
    have b1 := hb j
    rw [abs_le] at n1 b1 ⊢
    constructor <;> nlinarith [z1.1, z1.2]
  induction t generalizing j with
  | zero => exact key 0 (fun j => by simp [before]) j
  | succ t ih => exact key (t + 1) (fun j => by simpa [before] using ih j) j

/-- C90: the same for LSTM cells, whose memory grows by at most one per site. -/
theorem c90_lstm_bounded (act : ℝ → ℝ) (win : Fin D → Fin H → ℝ) (p : ℕ → LstmParams ℝ H) (depth : ℕ)
    (x : ℕ → Fin D → ℝ) (m h : ℕ → ℕ → Fin H → ℝ) (hh : LstmNet act win p depth x m h) (l : ℕ) (hl : l < depth)
    (t : ℕ) (j : Fin H) : |h (l + 1) t j| ≤ 1 ∧ |m l t j| ≤ t + 1 := by
  constructor
  · rw [(hh.layer l hl t).2]
    dsimp only [lstmOut]
    have o1 := sigma_mem (rowTimes (h l t) (p l).io j + rowTimes (before 0 (h (l + 1)) t) (p l).ho j + (p l).bo j)
    have n1 := Real.neg_one_lt_tanh (m l t j)
    have n2 := Real.tanh_lt_one (m l t j)
    rw [abs_le]
    constructor <;> nlinarith [o1.1, o1.2]
  · have key : ∀ t : ℕ, (∀ j, |before 0 (m l) t j| ≤ t) → ∀ j, |m l t j| ≤ t + 1 := by
      intro t hb j
      rw [(hh.layer l hl t).1]
      dsimp only [lstmMemory]
      have f1 := sigma_mem (rowTimes (h l t) (p l).iff j + rowTimes (before 0 (h (l + 1)) t) (p l).hf j + (p l).bf j)
      have i1 := sigma_mem (rowTimes (h l t) (p l).ii j + rowTimes (before 0 (h (l + 1)) t) (p l).hi j + (p l).bi j)
      set f := sigma (rowTimes (h l t) (p l).iff j + rowTimes (before 0 (h (l + 1)) t) (p l).hf j + (p l).bf j)
      set i := sigma (rowTimes (h l t) (p l).ii j + rowTimes (before 0 (h (l + 1)) t) (p l).hi j + (p l).bi j)
      set n := Real.tanh _ with hn
      have n1 : |n| ≤ 1 := by
        rw [hn, abs_le]
        exact ⟨(Real.neg_one_lt_tanh _).le, (Real.tanh_lt_one _).le⟩
      calc |f * before 0 (m l) t j + i * n| ≤ |f * before 0 (m l) t j| + |i * n| := abs_add_le _ _
        _ = f * |before 0 (m l) t j| + i * |n| := by
          rw [abs_mul, abs_mul, abs_of_pos f1.1, abs_of_pos i1.1]
        _ ≤ 1 * t + 1 * 1 := by
          apply add_le_add
          · exact mul_le_mul f1.2.le (hb j) (abs_nonneg _) zero_le_one
          · exact mul_le_mul i1.2.le n1 (abs_nonneg _) zero_le_one
        _ = t + 1 := by ring
    induction t generalizing j with
    | zero => exact key 0 (fun j => by simp [before]) j
    | succ t ih =>
      refine key (t + 1) (fun j => ?_) j
      have := ih j
      simpa [before] using this

/-! ## Square lattices -/

/-- The configuration as the rows that are passed to the network. -/
def latticeInput {L : ℕ} (s : Fin L → Fin L → Fin D) : List (List ℤ) :=
  List.ofFn fun r => List.ofFn fun c => ((s r c : ℕ) : ℤ)

/-- Its one-hot encoding. -/
noncomputable def latticeHot {L : ℕ} (s : Fin L → Fin L → Fin D) (r c : ℕ) : ℕ → ℝ :=
  if h : r < L ∧ c < L then oneHot D ((s ⟨r, h.1⟩ ⟨c, h.2⟩ : ℕ) : ℤ) else 0

theorem latticeHot_unit {L : ℕ} (s : Fin L → Fin L → Fin D) (r c : ℕ) (i : Fin D) :
    ((latticeHot s r c i : ℝ) : K) = unit2 s r c i := by
  unfold latticeHot unit2
  by_cases h : r < L ∧ c < L
  · rw [dif_pos h]
    unfold oneHot
    by_cases hi : s ⟨r, h.1⟩ ⟨c, h.2⟩ = i
    · rw [if_pos ⟨i.isLt, by rw [hi]⟩, if_pos ⟨h.1, h.2, hi⟩]
      simp
    · rw [if_neg, if_neg]
      · simp
      · rintro ⟨_, _, h'⟩
        exact hi h'
      · rintro ⟨_, h'⟩
        exact hi (Fin.ext (by exact_mod_cast h'.symm))
  · rw [dif_neg h, if_neg]
    · simp
    · rintro ⟨h1, h2, _⟩
      exact h ⟨h1, h2⟩

theorem latticeInput_hot {L : ℕ} (s : Fin L → Fin L → Fin D) :
    ((latticeInput s).map fun row => row.map (oneHot D))
      = (List.range L).map fun r => (List.range L).map (latticeHot s r) := by
  apply List.ext_getElem
  · simp [latticeInput]
  · intro r h1 h2
    have hr : r < L := by simpa using h2
    simp only [latticeInput, List.getElem_map, List.getElem_ofFn, List.getElem_range]
    apply List.ext_getElem
    · simp
    · intro c h3 h4
      have hc : c < L := by simpa using h4
      simp only [List.getElem_map, List.getElem_ofFn, List.getElem_range]
      unfold latticeHot
      rw [dif_pos ⟨hr, hc⟩]

/-- Layers, rows and columns of a stack, for all cells. -/
theorem stack_unrolled_2d (act : K → K) (win : Fin (D + D) → Fin H → K) (depth : ℕ) (cells : ℕ → CellFn2 K H)
    (zero : Rows K H) (head : RnnHead (Fin H → K)) (hD : head.inputDim = D) {L : ℕ}
    (s : Fin L → Fin L → Fin D) :
    ∃ (C : ℕ → ℕ → ℕ → Rows K H) (R : ℕ → ℕ → ℕ → Fin H → K),
      (∀ r < L, ∀ c < L, ∀ j, R 0 r c j = act (rowTimes (Fin.append (besides 0 L r c (unit2 s r))
        (before 0 (fun r' => unit2 s r' c) r)) win j)) ∧
      (∀ l < depth, ∀ r < L, ∀ c < L, (C l r c, R (l + 1) r c)
        = cells l (besides zero L r c (C l r)) (before zero (fun r' => C l r' c) r) (R l r c)) ∧
      rnn2d ⟨head, stackCall2 act win ((List.range depth).map cells), fun _ => List.replicate depth zero⟩ L
        (latticeInput s) = ∑ r : Fin L, ∑ c : Fin L, head.logProbs (R depth r c) (s r c) := by
  set net : Rnn2D (List (Rows K H)) (Fin H → K) :=
    ⟨head, stackCall2 act win ((List.range depth).map cells), fun _ => List.replicate depth zero⟩ with hnet
  obtain ⟨G, hG, hsum⟩ := rnnScanV_states net L L 0 (fun _ => List.replicate depth zero) (fun _ _ => 0)
    (latticeHot s)
  set Z := List.replicate depth zero with hZ
  simp only [Nat.zero_add] at hG
  have hlen : ∀ r < L, ∀ c < L, (G r c).1.length = depth := by
    intro r hr
    have : ∀ k, ∀ c < L, visited L r c = k → (G r c).1.length = depth := by
      intro k
      induction k using Nat.strong_induction_on with
      | _ k ih =>
        intro c hc hk
        rw [hG r hr c hc]
        change (stackCall2 _ _ _ _ _ _ _).1.length = depth
        rw [stackCall2_length]
        unfold besides
        rcases zigzag_cases hc with h0 | ⟨c', h1, h2, h3⟩
        · rw [h0]; simp [hnet, hZ]
        · rw [h2]; exact ih _ (hk ▸ h3) c' h1 rfl
    exact fun c hc => this _ c hc rfl
  have hH : ∀ r < L, ∀ c < L, (besides Z L r c fun c' => (G r c').1).length = depth := by
    intro r hr c hc
    unfold besides
    rcases zigzag_cases hc with h0 | ⟨c', h1, h2, h3⟩
    · rw [h0]; simp [hZ]
    · rw [h2]; exact hlen r hr c' h1
  have hV : ∀ r < L, ∀ c < L, (before Z (fun r' => (G r' c).1) r).length = depth := by
    intro r hr c hc
    unfold before
    by_cases h0 : r = 0
    · simp [h0, hZ]
    · rw [if_neg h0]; exact hlen _ (by omega) c hc
  set PH : ℕ → ℕ → List (Rows K H) := fun r c => besides Z L r c fun c' => (G r c').1 with hPH
  set PV : ℕ → ℕ → List (Rows K H) := fun r c => before Z (fun r' => (G r' c).1) r with hPV
  set I : ℕ → ℕ → Fin H → K := fun r c j => act (rowTimes (Fin.append (besides 0 L r c (unit2 s r))
        (before 0 (fun r' => unit2 s r' c) r)) win j) with hI
  set R : ℕ → ℕ → ℕ → Fin H → K := fun l r c => between (fun l cV s => cells l ((PH r c).getD l []) cV s)
    (fun l => (PV r c).getD l []) (I r c) l with hR
  have hval : ∀ r < L, ∀ c < L, G r c = ((List.range depth).map fun l =>
      (cells l ((PH r c).getD l []) ((PV r c).getD l []) (R l r c)).1, R depth r c) := by
    intro r hr c hc
    rw [hG r hr c hc]
    change stackCall2 act win ((List.range depth).map cells) (PH r c) (PV r c) _ _ = _
    rw [stackCall2_eq _ _ _ _ _ _ (hH r hr c hc) (hV r hr c hc)]
    have e1 : (fun i : Fin D => ((besides 0 L r c (latticeHot s r) i : ℝ) : K)) = besides 0 L r c (unit2 s r) := by
      rw [besides_map (fun f : ℕ → ℝ => fun i : Fin D => ((f i : ℝ) : K))]
      congr 1
      · funext i; simp
      · funext c' i; exact latticeHot_unit s r c' i
    have e2 : (fun i : Fin D => ((before (fun _ => 0) (fun r' => latticeHot s r' c) r i : ℝ) : K))
        = before 0 (fun r' => unit2 s r' c) r := by
      rw [before_map (fun f : ℕ → ℝ => fun i : Fin D => ((f i : ℝ) : K))]
      congr 1
      · funext i; simp
      · funext r' i; exact latticeHot_unit s r' c i
    rw [e1, e2]
  set C : ℕ → ℕ → ℕ → Rows K H := fun l r c =>
    (cells l ((PH r c).getD l []) ((PV r c).getD l []) (R l r c)).1 with hC
  have hget : ∀ l < depth, ∀ r < L, ∀ c < L, (G r c).1.getD l [] = C l r c := by
    intro l hl r hr c hc
    rw [hval r hr c hc, List.getD_eq_getElem _ _ (by simpa using hl)]
    simp
    rfl
  have hZl : ∀ l < depth, Z.getD l [] = zero := by
    intro l hl
    rw [hZ, List.getD_eq_getElem _ _ (by simpa using hl)]
    simp
  refine ⟨C, R, fun r _ c _ j => rfl, fun l hl r hr c hc => ?_, ?_⟩
  · have e1 : (PH r c).getD l [] = besides zero L r c (C l r) := by
      rw [hPH]
      dsimp only
      rw [besides_map (fun P : List (Rows K H) => P.getD l []), hZl l hl]
      exact besides_congr hc fun c' hc' _ => hget l hl r hr c' hc'
    have e2 : (PV r c).getD l [] = before zero (fun r' => C l r' c) r := by
      rw [hPV]
      dsimp only
      rw [before_map (fun P : List (Rows K H) => P.getD l []), hZl l hl]
      unfold before
      by_cases h0 : r = 0
      · simp [h0]
      · rw [if_neg h0, if_neg h0]
        exact hget l hl _ (by omega) c hc
    rw [← e1, ← e2]
    rfl
  · unfold rnn2d
    have hd : net.head.inputDim = D := hD
    rw [hd, latticeInput_hot]
    have hrep : (List.replicate L fun _ => 0 : List (ℕ → ℝ)) = (List.range L).map fun _ => fun _ => 0 := by
      rw [List.map_const', List.length_range]
    rw [hrep]
    change (rnnScanV net 0 ((List.range L).map fun _ => Z, _) _).sum = _
    rw [hsum, Finset.sum_range]
    refine Finset.sum_congr rfl fun r _ => ?_
    rw [Finset.sum_range]
    refine Finset.sum_congr rfl fun c _ => ?_
    rw [hval r r.isLt c c.isLt]
    have hs := select_oneHot head (R depth r c) (x := ((s r c : ℕ) : ℤ)) (by
      rw [mem_localStates, hD]
      exact ⟨by omega, by exact_mod_cast (s r c).isLt⟩)
    rw [hD] at hs
    unfold latticeHot
    rw [dif_pos ⟨r.isLt, c.isLt⟩]
    simpa using hs

/-- C90: hidden states of `cell="RNN"` on a square lattice. -/
theorem c90_hidden_2d (g : GateFns K) (act : K → K) (w : RnnWeights2 K D H) (depth : ℕ)
    (head : RnnHead (Fin H → K)) (hD : head.inputDim = D) {L : ℕ} (s : Fin L → Fin L → Fin D) :
    ∃ net h, setupRnn2D g act w depth (.name "RNN") head = .ok net ∧
      Vanilla2D act w.win w.rnnH w.rnnV depth L (unit2 s) h ∧
      rnn2d net L (latticeInput s) = ∑ r : Fin L, ∑ c : Fin L, head.logProbs (h depth r c) (s r c) := by
  obtain ⟨C, R, h0, h1, h2⟩ := stack_unrolled_2d act w.win depth
    (fun l => rnnCell2 act (w.rnnH l) (w.rnnV l)) [0] head hD s
  refine ⟨_, R, rfl, ⟨h0, fun l hl r hr c hc j => ?_⟩, h2⟩
  have hC : ∀ r < L, ∀ c < L, C l r c = [R (l + 1) r c] := by
    intro r hr c hc
    have := h1 l hl r hr c hc
    rw [rnnCell2, Prod.mk.injEq] at this
    rw [this.1, this.2]
    rfl
  have e := congrFun (congrArg Prod.snd (h1 l hl r hr c hc)) j
  rw [rnnCell2] at e
  have eH : (besides [0] L r c (C l r)).getD 0 0 = besides 0 L r c (R (l + 1) r) := by
    rw [besides_map (fun P : Rows K H => P.getD 0 0)]
    exact besides_congr hc fun c' hc' _ => by rw [hC r hr c' hc']; rfl
  have eV : (before [0] (fun r' => C l r' c) r).getD 0 0 = before 0 (fun r' => R (l + 1) r' c) r := by
    unfold before
    by_cases h0 : r = 0
    · simp [h0]
    · simp [h0, hC (r - 1) (by omega) c hc]
  simp only [List.getD_cons_zero] at e
  rw [e, eH, eV]
  rfl

/-- C90, `cell="RNN"` on a square lattice with real parameters. -/
theorem c90_rnn_2d (hD : 0 < D) (act : ℝ → ℝ) (w : RnnWeights2 ℝ D H) (depth : ℕ) (κ : ℝ) (rvo : Bool) {F : ℕ}
    (wo : Fin H → Fin F → ℝ) (bo : Fin F → ℝ) {L : ℕ} (s : Fin L → Fin L → Fin D) :
    ∃ net h, setupRnn2D realGates act w depth (.name "RNN") (realHead D κ rvo (outputDense wo bo)) = .ok net ∧
      Vanilla2D act w.win w.rnnH w.rnnV depth L (unit2 s) h ∧
      rnn2d net L (latticeInput s)
        = ∑ r : Fin L, ∑ c : Fin L, condAmplitude κ (!rvo) (affine wo bo (h depth r c)) (s r c) := by
  obtain ⟨net, h, h1, h2, h3⟩ := c90_hidden_2d realGates act w depth (realHead D κ rvo (outputDense wo bo)) rfl s
  refine ⟨net, h, h1, h2, ?_⟩
  rw [h3]
  exact Finset.sum_congr rfl fun r _ => Finset.sum_congr rfl fun c _ =>
    realHead_condAmplitude hD κ rvo wo bo _ _

/-- C90, `cell="LSTM"` on a square lattice. -/
theorem c90_lstm_2d (hD : 0 < D) (act : ℝ → ℝ) (w : RnnWeights2 ℝ D H) (depth : ℕ) (κ : ℝ) (rvo : Bool) {F : ℕ}
    (wo : Fin H → Fin F → ℝ) (bo : Fin F → ℝ) {L : ℕ} (s : Fin L → Fin L → Fin D) :
    ∃ net m h, setupRnn2D realGates act w depth (.name "LSTM") (realHead D κ rvo (outputDense wo bo)) = .ok net ∧
      LstmNet2D act w.win w.lstmH w.lstmV w.lstmB w.lstm depth L (unit2 s) m h ∧
      rnn2d net L (latticeInput s)
        = ∑ r : Fin L, ∑ c : Fin L, condAmplitude κ (!rvo) (affine wo bo (h depth r c)) (s r c) := by
  obtain ⟨C, R, h0, h1, h2⟩ := stack_unrolled_2d act w.win depth
    (fun l => lstmCell2 realGates (w.lstmH l) (w.lstmB l) (w.lstmV l) (w.lstm l)) [0, 0]
    (realHead D κ rvo (outputDense wo bo)) rfl s
  refine ⟨_, fun l r c => (C l r c).getD 0 0, R, rfl, ⟨h0, fun l hl r hr c hc => ?_⟩, ?_⟩
  · have hC : ∀ r < L, ∀ c < L, C l r c = [(C l r c).getD 0 0, R (l + 1) r c] := by
      intro r hr c hc
      have e := h1 l hl r hr c hc
      rw [lstmCell2, Prod.mk.injEq] at e
      rw [e.2]
      conv_lhs => rw [e.1]
      conv_rhs => rw [e.1]
      rfl
    have eH : besides [0, 0] L r c (C l r) = [besides 0 L r c (fun c' => (C l r c').getD 0 0),
        besides 0 L r c (R (l + 1) r)] := by
      unfold besides
      rcases zigzag_cases hc with h0 | ⟨c', h1, h2, h3⟩
      · rw [h0]; rfl
      · rw [h2]; exact hC r hr c' h1
    have eV : before [0, 0] (fun r' => C l r' c) r = [before 0 (fun r' => (C l r' c).getD 0 0) r,
        before 0 (fun r' => R (l + 1) r' c) r] := by
      unfold before
      by_cases h0 : r = 0
      · simp [h0]
      · rw [if_neg h0, if_neg h0, if_neg h0]; exact hC _ (by omega) c hc
    have e := h1 l hl r hr c hc
    rw [lstmCell2, eH, eV] at e
    dsimp only [List.zipWith_cons_cons, List.getD_cons_zero, List.getD_cons_succ, List.zipWith_nil_left] at e
    rw [lstm_spec, Prod.mk.injEq] at e
    dsimp only
    have e0 : (C l r c).getD 0 0 = lstmMemory (w.lstm l)
        (mixed (w.lstmH l) (w.lstmB l) (w.lstmV l) (besides 0 L r c (fun c' => (C l r c').getD 0 0))
          (before 0 (fun r' => (C l r' c).getD 0 0) r))
        (mixed (w.lstmH l) (w.lstmB l) (w.lstmV l) (besides 0 L r c (R (l + 1) r))
          (before 0 (fun r' => R (l + 1) r' c) r)) (R l r c) := by
      rw [e.1]
      rfl
    refine ⟨e0, ?_⟩
    rw [e.2, e0]
    rfl
  · refine h2.trans ?_
    exact Finset.sum_congr rfl fun r _ => Finset.sum_congr rfl fun c _ =>
      realHead_condAmplitude hD κ rvo wo bo _ _

/-- C90: two configurations which agree on all sites visited before `(r, c)` have the same hidden states
there. -/
theorem c90_causal_2d (act : K → K) (win : Fin (D + D) → Fin H → K) (wH wV : ℕ → Fin H → Fin H → K)
    (depth L : ℕ) (x x' : ℕ → ℕ → Fin D → K) (h h' : ℕ → ℕ → ℕ → Fin H → K)
    (hh : Vanilla2D act win wH wV depth L x h) (hh' : Vanilla2D act win wH wV depth L x' h') (r c : ℕ)
    (hr : r < L) (hc : c < L)
    (hx : ∀ r' < L, ∀ c' < L, visited L r' c' < visited L r c → x r' c' = x' r' c') :
    ∀ l ≤ depth, h l r c = h' l r c := by
  have key : ∀ k, ∀ r < L, ∀ c < L, visited L r c = k →
      (∀ r' < L, ∀ c' < L, visited L r' c' < visited L r c → x r' c' = x' r' c') →
      ∀ l ≤ depth, h l r c = h' l r c := by
    intro k
    induction k using Nat.strong_induction_on with
    | _ k ihk =>
      intro r hr c hc hk hx l
      have above : ∀ r', r = r' + 1 → visited L r' c < visited L r c := by
        rintro r' rfl
        exact visited_above hc
      have bcongr : ∀ (f g : ℕ → ℕ → Fin H → K), (∀ r' < L, ∀ c' < L, visited L r' c' < visited L r c →
          f r' c' = g r' c') → before 0 (fun r' => f r' c) r = before 0 (fun r' => g r' c) r := by
        intro f g hfg
        cases r with
        | zero => rfl
        | succ r => exact hfg r (by omega) c hc (above r rfl)
      induction l with
      | zero =>
        intro _
        funext j
        rw [hh.input r hr c hc, hh'.input r hr c hc]
        have e1 : besides 0 L r c (x r) = besides 0 L r c (x' r) :=
          besides_congr hc fun c' hc' hv => hx r hr c' hc' hv
        have e2 : before 0 (fun r' => x r' c) r = before 0 (fun r' => x' r' c) r := by
          cases r with
          | zero => rfl
          | succ r => exact hx r (by omega) c hc (above r rfl)
        rw [e1, e2]
      | succ l ih =>
        intro hl
        funext j
        have earlier : ∀ r' < L, ∀ c' < L, visited L r' c' < visited L r c →
            h (l + 1) r' c' = h' (l + 1) r' c' := fun r' hr' c' hc' hv =>
          ihk _ (hk ▸ hv) r' hr' c' hc' rfl (fun a ha b hb hab => hx a ha b hb (hab.trans hv)) (l + 1) hl
        rw [hh.layer l hl r hr c hc, hh'.layer l hl r hr c hc, ih (by omega)]
        have e1 : besides 0 L r c (h (l + 1) r) = besides 0 L r c (h' (l + 1) r) :=
          besides_congr hc fun c' hc' hv => earlier r hr c' hc' hv
        rw [e1, bcongr _ _ earlier]
  exact key _ r hr c hc rfl hx

/-- C90 is violated for `cell="GRU"` on square lattices: the network cannot be set up. -/
theorem c90_gru_2d_violated (g : GateFns K) (act : K → K) (w : RnnWeights2 K D H) (depth : ℕ) (hd : 0 < depth)
    (head : RnnHead (Fin H → K)) :
    setupRnn2D g act w depth (.name "GRU") head = .error .typeError := by
  unfold setupRnn2D setupCells2D
  simp [Nat.ne_of_gt hd]
  rfl

/-- C90, custom cells on a chain: each cell gets its own carry of the preceding site and the output of the
cell below. -/
theorem c90_custom_1d (g : GateFns K) (act : K → K) (w : RnnWeights K D H) (depth n : ℕ) (cells : ℕ → CellFn K H)
    (zero : Rows K H) (head : RnnHead (Fin H → K)) (hD : head.inputDim = D) {L : ℕ} (s : Fin L → Fin D) :
    ∃ net, setupRnn1D g act w depth (.custom ((List.range n).map cells) (List.replicate n zero)) head = .ok net ∧
    ∃ (C : ℕ → ℕ → Rows K H) (R : ℕ → ℕ → Fin H → K),
      (∀ t j, R 0 t j = act (rowTimes (before 0 (unit s) t) w.win j)) ∧
      (∀ l < n, ∀ t, (C l t, R (l + 1) t) = cells l (before zero (C l) t) (R l t)) ∧
      rnn1d net (chainInput s) = ∑ t : Fin L, head.logProbs (R n t) (s t) :=
  ⟨_, rfl, stack_unrolled act w.win n cells zero head hD s⟩

/-- C90, custom cells on a square lattice. -/
theorem c90_custom_2d (g : GateFns K) (act : K → K) (w : RnnWeights2 K D H) (depth n : ℕ)
    (cells : ℕ → CellFn2 K H) (zero : Rows K H) (head : RnnHead (Fin H → K)) (hD : head.inputDim = D) {L : ℕ}
    (s : Fin L → Fin L → Fin D) :
    ∃ net, setupRnn2D g act w depth (.custom ((List.range n).map cells) fun _ => List.replicate n zero) head
      = .ok net ∧
    ∃ (C : ℕ → ℕ → ℕ → Rows K H) (R : ℕ → ℕ → ℕ → Fin H → K),
      (∀ r < L, ∀ c < L, ∀ j, R 0 r c j = act (rowTimes (Fin.append (besides 0 L r c (unit2 s r))
        (before 0 (fun r' => unit2 s r' c) r)) w.win j)) ∧
      (∀ l < n, ∀ r < L, ∀ c < L, (C l r c, R (l + 1) r c)
        = cells l (besides zero L r c (C l r)) (before zero (fun r' => C l r' c) r) (R l r c)) ∧
      rnn2d net L (latticeInput s) = ∑ r : Fin L, ∑ c : Fin L, head.logProbs (R n r c) (s r c) :=
  ⟨_, rfl, stack_unrolled_2d act w.win n cells zero head hD s⟩

/-! ## Invalid arguments -/

/-- C91, as far as it holds on chains: exactly the documented names are accepted. Missing: the
exception, see `c91_unknown_violated`. -/
theorem c91_names_1d_partial (g : GateFns K) (act : K → K) (w : RnnWeights K D H) (depth : ℕ) (s : String)
    (head : RnnHead (Fin H → K)) :
    (∃ net, setupRnn1D g act w depth (.name s) head = .ok net) ↔ s = "RNN" ∨ s = "LSTM" ∨ s = "GRU" := by
  unfold setupRnn1D setupCells1D
  dsimp only
  by_cases h1 : s = "RNN"
  · rw [if_pos h1]; exact ⟨fun _ => Or.inl h1, fun _ => ⟨_, rfl⟩⟩
  · rw [if_neg h1]
    by_cases h2 : s = "LSTM"
    · rw [if_pos h2]; exact ⟨fun _ => Or.inr (Or.inl h2), fun _ => ⟨_, rfl⟩⟩
    · rw [if_neg h2]
      by_cases h3 : s = "GRU"
      · rw [if_pos h3]; exact ⟨fun _ => Or.inr (Or.inr h3), fun _ => ⟨_, rfl⟩⟩
      · rw [if_neg h3]
        refine ⟨?_, fun h => ?_⟩
        · rintro ⟨net, h⟩
          cases h
        · rcases h with h | h | h <;> contradiction

/-- C91, as far as it holds on square lattices. -/
theorem c91_names_2d_partial (g : GateFns K) (act : K → K) (w : RnnWeights2 K D H) (depth : ℕ) (s : String)
    (head : RnnHead (Fin H → K)) :
    (∃ net, setupRnn2D g act w depth (.name s) head = .ok net)
      ↔ s = "RNN" ∨ s = "LSTM" ∨ (s = "GRU" ∧ depth = 0) := by
  by_cases h1 : s = "RNN"
  · subst h1
    exact ⟨fun _ => Or.inl rfl, fun _ => ⟨_, rfl⟩⟩
  by_cases h2 : s = "LSTM"
  · subst h2
    exact ⟨fun _ => Or.inr (Or.inl rfl), fun _ => ⟨_, rfl⟩⟩
  by_cases h3 : s = "GRU"
  · subst h3
    rcases Nat.eq_zero_or_pos depth with hd | hd
    · subst hd
      exact ⟨fun _ => Or.inr (Or.inr ⟨rfl, rfl⟩), fun _ => ⟨_, rfl⟩⟩
    · rw [c90_gru_2d_violated g act w depth hd head]
      refine ⟨fun h => ?_, fun h => ?_⟩
      · obtain ⟨net, h⟩ := h
        cases h
      · rcases h with h | h | h
        · exact absurd h h1
        · exact absurd h h2
        · omega
  · have hv : setupRnn2D g act w depth (.name s) head = .error .attributeError := by
      unfold setupRnn2D setupCells2D
      simp only [h1, h2, h3, if_false]
      rfl
    rw [hv]
    refine ⟨fun h => ?_, fun h => ?_⟩
    · obtain ⟨net, h⟩ := h
      cases h
    · rcases h with h | h | h
      · exact absurd h h1
      · exact absurd h h2
      · exact absurd h.1 h3

/-- C91 is violated: for unknown names there is no `ValueError`, but an `AttributeError` about a missing
attribute `cells`; on both kinds of lattices. -/
theorem c91_unknown_violated (g : GateFns K) (act : K → K) (w : RnnWeights K D H) (w2 : RnnWeights2 K D H)
    (depth : ℕ) (s : String) (hs : s ≠ "RNN" ∧ s ≠ "LSTM" ∧ s ≠ "GRU") (head : RnnHead (Fin H → K)) :
    setupRnn1D g act w depth (.name s) head = .error .attributeError ∧
    setupRnn2D g act w2 depth (.name s) head = .error .attributeError := by
  unfold setupRnn1D setupCells1D setupRnn2D setupCells2D
  simp only [hs.1, hs.2.1, hs.2.2, if_false]
  exact ⟨rfl, rfl⟩

/-- C91 is violated: the set-up with complex parameters raises nothing for `"LSTM"` and, on chains, for `"GRU"`. (`NQS`
refuses these networks at the first evaluation because of their data types: `c122_networks`.) -/
theorem c91_complex_violated (act : ℂ → ℂ) (w : RnnWeights ℂ D H) (w2 : RnnWeights2 ℂ D H)
    (depth : ℕ) (head : RnnHead (Fin H → ℂ)) :
    (∃ net, setupRnn1D cpxGates act w depth (.name "LSTM") head = .ok net) ∧
    (∃ net, setupRnn1D cpxGates act w depth (.name "GRU") head = .ok net) ∧
    (∃ net, setupRnn2D cpxGates act w2 depth (.name "LSTM") head = .ok net) :=
  ⟨⟨_, rfl⟩, ⟨_, rfl⟩, ⟨_, rfl⟩⟩

/-- **C90**: the gates are the logistic function, `σ(x) = (1 + tanh(x/2))/2`, and the hyperbolic tangent, for real and for
complex numbers; at poles of the logistic function nothing is claimed. -/
theorem c90_gates :
    (∀ x : ℝ, realGates.sigmoid x = (1 + Real.tanh (x / 2)) / 2 ∧ realGates.tanh x = Real.tanh x) ∧
    (∀ x : ℝ, cpxGates.sigmoid x = (realGates.sigmoid x : ℂ) ∧ cpxGates.tanh x = (realGates.tanh x : ℂ)) ∧
    (∀ z : ℂ, Complex.cosh (z / 2) ≠ 0 → cpxGates.sigmoid z = (1 + Complex.tanh (z / 2)) / 2) ∧
    (∀ z : ℂ, cpxGates.tanh z = Complex.tanh z) := by
  have hc : ∀ z : ℂ, Complex.cosh (z / 2) ≠ 0 → cpxGates.sigmoid z = (1 + Complex.tanh (z / 2)) / 2 := by
    intro z hz
    have h1 : Complex.exp (z / 2) ≠ 0 := Complex.exp_ne_zero _
    have e1 : Complex.exp (-z) = Complex.exp (-(z / 2)) * Complex.exp (-(z / 2)) := by
      rw [← Complex.exp_add]; congr 1; ring
    have e2 : Complex.exp (-(z / 2)) = (Complex.exp (z / 2))⁻¹ := Complex.exp_neg _
    have hcosh : Complex.cosh (z / 2) = (Complex.exp (z / 2) + (Complex.exp (z / 2))⁻¹) / 2 := by
      rw [Complex.cosh, e2]
    have hsinh : Complex.sinh (z / 2) = (Complex.exp (z / 2) - (Complex.exp (z / 2))⁻¹) / 2 := by
      rw [Complex.sinh, e2]
    rw [Complex.tanh_eq_sinh_div_cosh]
    change 1 / (1 + Complex.exp (-z)) = _
    rw [hcosh] at hz
    rw [hcosh, hsinh, e1, e2]
    generalize Complex.exp (z / 2) = w at *
    have h3 : w ^ 2 + 1 ≠ 0 := by
      intro h
      apply hz
      field_simp
      rw [h, mul_zero]
    have h4 : 1 + w⁻¹ * w⁻¹ ≠ 0 := by
      intro h
      apply h3
      field_simp at h
      rw [h, mul_zero]
    field_simp
    ring
  have hr : ∀ x : ℝ, cpxGates.sigmoid x = (realGates.sigmoid x : ℂ) ∧ cpxGates.tanh x = (realGates.tanh x : ℂ) := by
    intro x
    constructor
    · simp [cpxGates, realGates]
    · simp [cpxGates, realGates]
  refine ⟨fun x => ⟨?_, rfl⟩, hr, hc, fun z => rfl⟩
  have h := hc x (by
    have h0 : Complex.cosh ((x : ℂ) / 2) = ((Real.cosh (x / 2) : ℝ) : ℂ) := by
      rw [Complex.ofReal_cosh]
      push_cast
      rfl
    rw [h0]
    exact Complex.ofReal_ne_zero.mpr (Real.cosh_pos (x / 2)).ne')
  rw [(hr x).1] at h
  have h2 : ((realGates.sigmoid x : ℝ) : ℂ) = (((1 + Real.tanh (x / 2)) / 2 : ℝ) : ℂ) := by
    rw [h]
    push_cast
    rfl
  exact_mod_cast h2

/-! ## Cases -/

/-- Case for `c90_causal_1d`, `c90_causal_2d`: the hidden states of two configurations that differ at the
end. -/
example (w : RnnWeights ℝ 2 3) (w2 : RnnWeights2 ℝ 2 3) (act : ℝ → ℝ) :
    (∃ h h', Vanilla act w.win w.rnn 2 (unit ![0, 1, 0]) h ∧ Vanilla act w.win w.rnn 2 (unit ![0, 1, 1]) h' ∧
      h 2 2 = h' 2 2) ∧
    (∃ h h', Vanilla2D act w2.win w2.rnnH w2.rnnV 2 2 (unit2 ![![0, 1], ![0, 1]]) h ∧
      Vanilla2D act w2.win w2.rnnH w2.rnnV 2 2 (unit2 ![![0, 1], ![1, 1]]) h' ∧ h 2 1 0 = h' 2 1 0) := by
  constructor
  · obtain ⟨_, h, _, h1, _⟩ := c90_hidden_1d realGates act w 2 (realHead 2 1 true fun _ _ => 0) rfl ![0, 1, 0]
    obtain ⟨_, h', _, h1', _⟩ := c90_hidden_1d realGates act w 2 (realHead 2 1 true fun _ _ => 0) rfl ![0, 1, 1]
    refine ⟨h, h', h1, h1', c90_causal_1d _ _ _ _ _ _ _ _ h1 h1' 2 ?_ 2 le_rfl⟩
    intro t ht
    interval_cases t <;> rfl
  · obtain ⟨_, h, _, h1, _⟩ := c90_hidden_2d realGates act w2 2 (realHead 2 1 true fun _ _ => 0) rfl
      ![![0, 1], ![0, 1]]
    obtain ⟨_, h', _, h1', _⟩ := c90_hidden_2d realGates act w2 2 (realHead 2 1 true fun _ _ => 0) rfl
      ![![0, 1], ![1, 1]]
    refine ⟨h, h', h1, h1', c90_causal_2d _ _ _ _ _ _ _ _ _ _ h1 h1' 1 0 (by norm_num) (by norm_num) ?_ 2 le_rfl⟩
    intro r hr c hc hv
    interval_cases r <;> interval_cases c <;> first | rfl | (exfalso; revert hv; decide)

/-- Case for the bounds: a network of gated cells. -/
example (w : RnnWeights ℝ 2 3) (act : ℝ → ℝ) : ∃ h, GruNet act w.win w.gru 1 (unit ![0, 1, 0]) h ∧
    |h 1 2 0| ≤ 1 := by
  obtain ⟨_, h, _, h1, _⟩ := c90_gru_1d (by norm_num) act w 1 1 true (F := 0) (fun _ _ => 0) (fun _ => 0) ![0, 1, 0]
  exact ⟨h, h1, c90_gru_bounded _ _ _ _ _ _ h1 0 (by norm_num) 2 0⟩

end JVMC
