import Mathlib.Algebra.BigOperators.Field
import Verif.Lemmas.SymNet
import Verif.Spec.Rnn

/-!
# Lemmas about recurrent networks
-/

namespace JVMC

open Spec

/-! ## Expectations -/

/-- The mean of `F`. -/
noncomputable def expect {A : Type} (d : WDist A) (F : A → ℝ) : ℝ := (d.map fun e => e.2 * F e.1).sum

theorem expect_pure {A : Type} (a : A) (F : A → ℝ) : expect (WDist.pure a) F = F a := by
  simp [expect, WDist.pure]

theorem expect_bind {A B : Type} (d : WDist A) (f : A → WDist B) (F : B → ℝ) :
    expect (WDist.bind d f) F = expect d fun a => expect (f a) F := by
  unfold expect WDist.bind
  induction d with
  | nil => rfl
  | cons e d ih =>
    rw [List.flatMap_cons, List.map_append, List.sum_append, ih, List.map_cons, List.sum_cons, List.map_map,
      ← List.sum_map_mul_left]
    congr 3
    funext x
    simp [mul_assoc]

open Classical in
theorem prob_eq_expect {A : Type} (d : WDist A) (a : A) : prob d a = expect d fun b => if b = a then 1 else 0 := by
  unfold prob expect
  congr 1
  apply List.map_congr_left
  intro e _
  split_ifs with h <;> simp [h]

theorem expect_congr {A : Type} (d : WDist A) {F G : A → ℝ} (h : ∀ a, F a = G a) : expect d F = expect d G := by
  rw [show F = G from funext h]

theorem expect_const {A : Type} (d : WDist A) (c : ℝ) : expect d (fun _ => c) = expect d (fun _ => 1) * c := by
  unfold expect
  rw [← List.sum_map_mul_right]
  simp

/-! ## Lists over an alphabet -/

/-- All lists of `n` letters. -/
def listsOver {A : Type} (alphabet : List A) : ℕ → List (List A)
  | 0 => [[]]
  | n + 1 => alphabet.flatMap fun a => (listsOver alphabet n).map fun l => a :: l

theorem mem_listsOver {A : Type} {alphabet : List A} {n : ℕ} {l : List A} :
    l ∈ listsOver alphabet n ↔ l.length = n ∧ ∀ a ∈ l, a ∈ alphabet := by
  induction n generalizing l with
  | zero =>
    simp only [listsOver, List.mem_singleton, List.length_eq_zero_iff]
    constructor
    · rintro rfl
      simp
    · exact fun h => h.1
  | succ n ih =>
    simp only [listsOver, List.mem_flatMap, List.mem_map]
    constructor
    · rintro ⟨a, ha, l', hl', rfl⟩
      rw [ih] at hl'
      exact ⟨by simp [hl'.1], by
        intro b hb
        rcases List.mem_cons.mp hb with rfl | hb
        · exact ha
        · exact hl'.2 b hb⟩
    · rintro ⟨h1, h2⟩
      cases l with
      | nil => simp at h1
      | cons a l =>
        exact ⟨a, h2 a (by simp), l, ih.mpr ⟨by simpa using h1, fun b hb => h2 b (by simp [hb])⟩, rfl⟩

theorem listsOver_nodup {A : Type} {alphabet : List A} (h : alphabet.Nodup) (n : ℕ) : (listsOver alphabet n).Nodup := by
  induction n with
  | zero => simp [listsOver]
  | succ n ih =>
    rw [listsOver, List.nodup_flatMap]
    refine ⟨fun a _ => ih.map fun x y hxy => (List.cons.inj hxy).2, ?_⟩
    refine h.imp ?_
    intro a b hab
    rw [Function.onFun, List.disjoint_left]
    intro l h1 h2
    rw [List.mem_map] at h1 h2
    obtain ⟨x, _, rfl⟩ := h1
    obtain ⟨y, _, hy⟩ := h2
    exact hab (List.cons.inj hy).1.symm

theorem listsOver_reverse {A : Type} {alphabet : List A} (h : alphabet.Nodup) (n : ℕ) :
    ((listsOver alphabet n).map List.reverse).Perm (listsOver alphabet n) := by
  rw [List.perm_ext_iff_of_nodup ((listsOver_nodup h n).map List.reverse_injective) (listsOver_nodup h n)]
  intro l
  rw [List.mem_map]
  constructor
  · rintro ⟨x, hx, rfl⟩
    rw [mem_listsOver] at hx ⊢
    simpa using hx
  · intro hl
    refine ⟨l.reverse, ?_, by simp⟩
    rw [mem_listsOver] at hl ⊢
    simpa using hl

theorem sum_listsOver_succ {A : Type} (alphabet : List A) (n : ℕ) (f : List A → ℝ) :
    ((listsOver alphabet (n + 1)).map f).sum =
      (alphabet.map fun a => ((listsOver alphabet n).map fun l => f (a :: l)).sum).sum := by
  rw [listsOver]
  induction alphabet.map id with
  | nil =>
    generalize listsOver alphabet n = t
    induction alphabet with
    | nil => rfl
    | cons a l ih => simp [List.flatMap_cons, ih, Function.comp_def]
  | cons _ _ ih => exact ih

/-- A sum over functions is a sum over lists. -/
theorem sum_listsOver {A α : Type} [Fintype α] [DecidableEq α] (alphabet : List A) (g : α → A)
    (h : ∀ f : A → ℝ, ∑ a, f (g a) = (alphabet.map f).sum) (n : ℕ) (f : List A → ℝ) :
    ∑ x : Fin n → α, f (List.ofFn fun i => g (x i)) = ((listsOver alphabet n).map f).sum := by
  induction n generalizing f with
  | zero => simp [listsOver]
  | succ n ih =>
    rw [sum_listsOver_succ, ← h, ← (Fin.consEquiv fun _ => α).sum_comp, Fintype.sum_prod_type]
    apply Finset.sum_congr rfl
    intro a _
    rw [← ih]
    apply Finset.sum_congr rfl
    intro x _
    congr 1
    rw [List.ofFn_succ]
    rfl

open Classical in
theorem sum_indicator {A : Type} {l : List A} (hl : l.Nodup) {a : A} (ha : a ∈ l) (w : A → ℝ) :
    (l.map fun b => w b * if b = a then 1 else 0).sum = w a := by
  induction l with
  | nil => simp at ha
  | cons b l ih =>
    rw [List.nodup_cons] at hl
    rw [List.map_cons, List.sum_cons]
    rcases List.mem_cons.mp ha with rfl | ha
    · rw [if_pos rfl]
      have : (l.map fun b => w b * if b = a then 1 else 0) = l.map fun _ => (0 : ℝ) := by
        apply List.map_congr_left
        intro b hb
        rw [if_neg (fun h : b = a => hl.1 (h ▸ hb)), mul_zero]
      rw [this]
      simp
    · rw [ih hl.2 ha, if_neg (fun h : b = a => hl.1 (h ▸ ha))]
      simp

/-! ## The head -/

/-- The letters: local states. -/
def localStates (n : ℕ) : List ℤ := (List.range n).map fun j : ℕ => (j : ℤ)

theorem localStates_nodup (n : ℕ) : (localStates n).Nodup :=
  List.nodup_range.map fun _ _ h => Int.ofNat_inj.mp h

theorem mem_localStates {n : ℕ} {x : ℤ} : x ∈ localStates n ↔ 0 ≤ x ∧ x < n := by
  unfold localStates
  rw [List.mem_map]
  constructor
  · rintro ⟨a, ha, rfl⟩
    rw [List.mem_range] at ha
    omega
  · rintro ⟨h1, h2⟩
    exact ⟨x.toNat, by rw [List.mem_range]; omega, by omega⟩

theorem sum_localStates (n : ℕ) (f : ℤ → ℝ) : ∑ a : Fin n, f (a : ℤ) = ((localStates n).map f).sum := by
  unfold localStates
  rw [List.map_map, ← Finset.sum_range fun j : ℕ => f (j : ℤ)]
  rfl

/-- The probabilities of the local states add up to one. -/
def Normed {O : Type} (h : RnnHead O) : Prop :=
  ∀ o, ∑ k ∈ Finset.range h.inputDim, Real.exp ((h.logProbs o k).re / h.logProbFactor) = 1

theorem logSoftmax_eq (n : ℕ) (hn : 0 < n) (a : ℕ → ℝ) (j : ℕ) :
    logSoftmax n a j = a j - Real.log (∑ k ∈ Finset.range n, Real.exp (a k)) := by
  unfold logSoftmax
  dsimp only
  set m := ((List.range n).map a).max?.getD 0
  have hpos : 0 < ∑ k ∈ Finset.range n, Real.exp (a k) :=
    Finset.sum_pos (fun _ _ => Real.exp_pos _) ⟨0, Finset.mem_range.mpr hn⟩
  have h : ∑ k ∈ Finset.range n, Real.exp (a k - m) = (∑ k ∈ Finset.range n, Real.exp (a k)) * Real.exp (-m) := by
    rw [Finset.sum_mul]
    apply Finset.sum_congr rfl
    intro k _
    rw [← Real.exp_add, sub_eq_add_neg]
  rw [h, Real.log_mul hpos.ne' (Real.exp_pos _).ne', Real.log_exp]
  ring

theorem logSoftmax_exp (n : ℕ) (hn : 0 < n) (a : ℕ → ℝ) :
    ∑ k ∈ Finset.range n, Real.exp (logSoftmax n a k) = 1 := by
  unfold logSoftmax
  dsimp only
  set m := ((List.range n).map a).max?.getD 0
  have hpos : 0 < ∑ k ∈ Finset.range n, Real.exp (a k - m) :=
    Finset.sum_pos (fun _ _ => Real.exp_pos _) ⟨0, Finset.mem_range.mpr hn⟩
  simp_rw [fun k => Real.exp_sub (a k - m), Real.exp_log hpos]
  rw [← Finset.sum_div, div_self hpos.ne']

theorem logCoeffs_re (n : ℕ) (κ : ℝ) (r : Bool) (c : ℕ → ℝ) (j : ℕ) :
    (logCoeffsToLogProbs n κ r c j).re = κ * logSoftmax n (fun k => if k = 0 then 0 else c (k - 1)) j := by
  unfold logCoeffsToLogProbs
  cases r <;> simp

theorem realHead_normed {O : Type} (n : ℕ) (hn : 0 < n) (κ : ℝ) (hκ : κ ≠ 0) (r : Bool) (dense : O → ℕ → ℝ) :
    Normed (realHead n κ r dense) := by
  intro o
  change ∑ k ∈ Finset.range n, Real.exp ((logCoeffsToLogProbs n κ r (dense o) k).re / κ) = 1
  simp_rw [logCoeffs_re, mul_div_cancel_left₀ _ hκ]
  exact logSoftmax_exp n hn _

theorem select_oneHot {O : Type} (h : RnnHead O) (o : O) {x : ℤ} (hx : x ∈ localStates h.inputDim) :
    h.select o (oneHot h.inputDim x) = h.logProbs o x.toNat := by
  rw [mem_localStates] at hx
  unfold RnnHead.select oneHot
  rw [Finset.sum_eq_single x.toNat]
  · rw [if_pos ⟨by omega, by omega⟩]
    simp
  · intro b _ hb
    rw [if_neg (by omega)]
    simp
  · intro h1
    rw [Finset.mem_range] at h1
    omega

theorem expect_draw {O : Type} {h : RnnHead O} (hh : Normed h) (o : O) (F : ℤ → ℝ) :
    expect (h.draw o) F = ((localStates h.inputDim).map fun x =>
      Real.exp ((h.select o (oneHot h.inputDim x)).re / h.logProbFactor) * F x).sum := by
  unfold expect RnnHead.draw categorical
  rw [hh o, List.map_map]
  have : ∀ x ∈ localStates h.inputDim, Real.exp ((h.select o (oneHot h.inputDim x)).re / h.logProbFactor) * F x =
      Real.exp ((h.logProbs o x.toNat).re / h.logProbFactor) * F x := by
    intro x hx
    rw [select_oneHot h o hx]
  rw [List.map_congr_left this]
  unfold localStates
  rw [List.map_map]
  congr 1
  apply List.map_congr_left
  intro j _
  simp

theorem expect_draw_one {O : Type} {h : RnnHead O} (hh : Normed h) (o : O) : expect (h.draw o) (fun _ => 1) = 1 := by
  unfold expect RnnHead.draw categorical
  rw [hh o, List.map_map]
  refine Eq.trans ?_ (hh o)
  simp only [Function.comp_def, div_one, mul_one]
  rfl

/-! ## One dimension -/

theorem expect_rnnSampleScan {H O : Type} (net : Rnn1D H O) (hh : Normed net.head) (n : ℕ) (c : H × (ℕ → ℝ))
    (F : List ℤ → ℝ) :
    expect (rnnSampleScan net c n) F = ((listsOver (localStates net.head.inputDim) n).map fun l =>
      Real.exp ((rnnScan net c (l.map (oneHot net.head.inputDim))).sum.re / net.head.logProbFactor) * F l).sum := by
  induction n generalizing c F with
  | zero => simp [rnnSampleScan, expect_pure, listsOver, rnnScan]
  | succ n ih =>
    rw [rnnSampleScan]
    rw [expect_bind, expect_draw hh, sum_listsOver_succ]
    congr 1
    apply List.map_congr_left
    intro j _
    rw [expect_bind, ih, ← List.sum_map_mul_left]
    congr 1
    apply List.map_congr_left
    intro l _
    rw [expect_pure, List.map_cons, rnnScan, List.sum_cons, Complex.add_re, add_div, Real.exp_add, mul_assoc]

theorem expect_rnnSampleScan_one {H O : Type} (net : Rnn1D H O) (hh : Normed net.head) (n : ℕ) (c : H × (ℕ → ℝ)) :
    expect (rnnSampleScan net c n) (fun _ => 1) = 1 := by
  induction n generalizing c with
  | zero => simp [rnnSampleScan, expect_pure]
  | succ n ih =>
    rw [rnnSampleScan]
    rw [expect_bind]
    simp_rw [expect_bind, expect_pure, ih]
    exact expect_draw_one hh _

/-- The norm of an amplitude. -/
theorem norm_exp_rpow (z : ℂ) (κ : ℝ) : ‖Complex.exp z‖ ^ (1 / κ) = Real.exp (z.re / κ) := by
  rw [Complex.norm_exp, ← Real.exp_mul]
  congr 1
  ring

theorem prob_rnn1d {H O : Type} (net : Rnn1D H O) (hh : Normed net.head) (L : ℕ) {l : List ℤ}
    (hl : l ∈ listsOver (localStates net.head.inputDim) L) :
    prob (rnn1dSample net L) l = ‖Complex.exp (rnn1d net l)‖ ^ (1 / net.head.logProbFactor) := by
  rw [prob_eq_expect, rnn1dSample, expect_rnnSampleScan net hh,
    sum_indicator (listsOver_nodup (localStates_nodup _) L) hl, norm_exp_rpow]
  rfl

theorem sum_rnn1d {H O : Type} (net : Rnn1D H O) (hh : Normed net.head) (L : ℕ) :
    ∑ x : Fin L → Fin net.head.inputDim, ‖Complex.exp (rnn1d net (List.ofFn fun i => (x i : ℤ)))‖ ^
      (1 / net.head.logProbFactor) = 1 := by
  rw [sum_listsOver (localStates net.head.inputDim) (fun a : Fin net.head.inputDim => (a : ℤ)) (sum_localStates _) L
    fun l => ‖Complex.exp (rnn1d net l)‖ ^ (1 / net.head.logProbFactor)]
  refine Eq.trans ?_ (expect_rnnSampleScan_one net hh L (net.zeroCarry, fun _ => 0))
  rw [expect_rnnSampleScan net hh]
  congr 1
  apply List.map_congr_left
  intro l _
  rw [norm_exp_rpow, mul_one]
  rfl

/-! ## Two dimensions -/

theorem reverseLine_length {A : Type} (l : List A) (b : Bool) : (reverseLine l b).length = l.length := by
  unfold reverseLine
  split_ifs <;> simp

theorem reverseLine_twice {A : Type} (l : List A) (b : Bool) : reverseLine (reverseLine l b) b = l := by
  unfold reverseLine
  split_ifs <;> simp

theorem reverseLine_map {A B : Type} (f : A → B) (l : List A) (b : Bool) :
    (reverseLine l b).map f = reverseLine (l.map f) b := by
  unfold reverseLine
  split_ifs <;> simp

/-- The inputs of `rnn_cell_H` for a row given in the order of the scan. -/
def rowInputs {H : Type} (f : ℤ → ℕ → ℝ) : (ℕ → ℝ) → List (H × (ℕ → ℝ)) → List ℤ → List (H × (ℕ → ℝ) × (ℕ → ℝ))
  | _, [], _ => []
  | _, _ :: _, [] => []
  | xh, v :: vs, y :: ys => (v.1, xh, v.2) :: rowInputs f (f y) vs ys

theorem rowInputs_eq {H : Type} (f : ℤ → ℕ → ℝ) (xh : ℕ → ℝ) (cs : List H) (ps : List (ℕ → ℝ)) (ys : List ℤ)
    (h1 : cs.length = ys.length) (h2 : ps.length = ys.length) :
    cs.zip (((xh :: ys.map f).dropLast).zip ps) = rowInputs f xh (cs.zip ps) ys := by
  induction ys generalizing xh cs ps with
  | nil =>
    rw [List.length_nil, List.length_eq_zero_iff] at h1 h2
    subst h1 h2
    rfl
  | cons y ys ih =>
    obtain ⟨c, cs, rfl⟩ := List.exists_cons_of_length_eq_add_one h1
    obtain ⟨p, ps, rfl⟩ := List.exists_cons_of_length_eq_add_one h2
    rw [List.map_cons, List.dropLast_cons_cons]
    simp only [List.zip_cons_cons, rowInputs]
    rw [ih _ _ _ (by simpa using h1) (by simpa using h2)]

/-- The scan of a row, in the order of the scan. -/
noncomputable def rowScan {H O : Type} (net : Rnn2D H O) (c : H) (xh : ℕ → ℝ) (vs : List (H × (ℕ → ℝ))) (ys : List ℤ) :
    List (H × O) := rnnScanH net c (rowInputs (oneHot net.head.inputDim) xh vs ys)

/-- The logarithmic amplitude of a row. -/
noncomputable def rowLog {H O : Type} (net : Rnn2D H O) (c : H) (xh : ℕ → ℝ) (vs : List (H × (ℕ → ℝ))) (ys : List ℤ) : ℂ :=
  (List.zipWith (fun o y => net.head.select o y) ((rowScan net c xh vs ys).map Prod.snd)
    (ys.map (oneHot net.head.inputDim))).sum

theorem expect_rnnSampleH {H O : Type} (net : Rnn2D H O) (hh : Normed net.head) (vs : List (H × (ℕ → ℝ)))
    (c : H) (xh : ℕ → ℝ) (F : List (H × ℤ) → ℝ) :
    expect (rnnSampleH net (c, xh) vs) F = ((listsOver (localStates net.head.inputDim) vs.length).map fun ys =>
      Real.exp ((rowLog net c xh vs ys).re / net.head.logProbFactor) *
        F (((rowScan net c xh vs ys).map Prod.fst).zip ys)).sum := by
  induction vs generalizing c xh F with
  | nil => simp [rnnSampleH, expect_pure, listsOver, rowScan, rowLog, rowInputs, rnnScanH]
  | cons v vs ih =>
    rw [rnnSampleH]
    rw [expect_bind, expect_draw hh, List.length_cons, sum_listsOver_succ]
    congr 1
    apply List.map_congr_left
    intro j _
    rw [expect_bind, ih, ← List.sum_map_mul_left]
    congr 1
    apply List.map_congr_left
    intro l _
    rw [expect_pure]
    unfold rowLog rowScan
    rw [rowInputs, rnnScanH]
    dsimp only
    rw [List.map_cons, List.map_cons, List.map_cons, List.zipWith_cons_cons, List.sum_cons, Complex.add_re, add_div,
      Real.exp_add, mul_assoc, List.zip_cons_cons]

theorem expect_rnnSampleH_one {H O : Type} (net : Rnn2D H O) (hh : Normed net.head) (vs : List (H × (ℕ → ℝ)))
    (c : H × (ℕ → ℝ)) : expect (rnnSampleH net c vs) (fun _ => 1) = 1 := by
  induction vs generalizing c with
  | nil => simp [rnnSampleH, expect_pure]
  | cons v vs ih =>
    rw [rnnSampleH]
    rw [expect_bind]
    simp_rw [expect_bind, expect_pure, ih]
    exact expect_draw_one hh _

theorem rnnScanH_length {H O : Type} (net : Rnn2D H O) (c : H) (l : List (H × (ℕ → ℝ) × (ℕ → ℝ))) :
    (rnnScanH net c l).length = l.length := by
  induction l generalizing c with
  | nil => rfl
  | cons x xs ih => simp [rnnScanH, ih]

theorem sum_zipWith_reverseLine {A B : Type} (f : A → B → ℂ) (l : List A) (m : List B) (b : Bool)
    (h : l.length = m.length) :
    (List.zipWith f (reverseLine l b) m).sum = (List.zipWith f l (reverseLine m b)).sum := by
  unfold reverseLine
  split_ifs with hb
  · rfl
  · rw [← List.sum_reverse, List.reverse_zipWith (by simpa using h), List.reverse_reverse]

theorem rowInputs_length {H : Type} (f : ℤ → ℕ → ℝ) (xh : ℕ → ℝ) (vs : List (H × (ℕ → ℝ))) (ys : List ℤ)
    (h : vs.length = ys.length) : (rowInputs f xh vs ys).length = ys.length := by
  induction ys generalizing xh vs with
  | nil =>
    rw [List.length_nil, List.length_eq_zero_iff] at h
    subst h
    rfl
  | cons y ys ih =>
    obtain ⟨v, vs, rfl⟩ := List.exists_cons_of_length_eq_add_one h
    rw [rowInputs, List.length_cons, List.length_cons, ih _ _ (by simpa using h)]

theorem rowScan_length {H O : Type} (net : Rnn2D H O) (c : H) (xh : ℕ → ℝ) (vs : List (H × (ℕ → ℝ))) (ys : List ℤ)
    (h : vs.length = ys.length) : (rowScan net c xh vs ys).length = ys.length := by
  unfold rowScan
  rw [rnnScanH_length, rowInputs_length _ _ _ _ h]

/-- The row in terms of the scan. -/
theorem rnnRow_eq {H O : Type} (net : Rnn2D H O) (carry : List H × List (ℕ → ℝ)) (x : List ℤ) (b : Bool)
    (h1 : carry.1.length = x.length) (h2 : carry.2.length = x.length) :
    let vs := (reverseLine carry.1 b).zip (reverseLine carry.2 b)
    let S := rowScan net (net.zeroCarry 0) (fun _ => 0) vs (reverseLine x b)
    (rnnRow net carry (x.map (oneHot net.head.inputDim)) b).1 =
      (reverseLine (S.map Prod.fst) b, x.map (oneHot net.head.inputDim)) ∧
    (rnnRow net carry (x.map (oneHot net.head.inputDim)) b).2.sum =
      rowLog net (net.zeroCarry 0) (fun _ => 0) vs (reverseLine x b) := by
  have hin := rowInputs_eq (oneHot net.head.inputDim) (fun _ => 0) (reverseLine carry.1 b) (reverseLine carry.2 b)
    (reverseLine x b) (by simp only [reverseLine_length, h1]) (by simp only [reverseLine_length, h2])
  dsimp only
  unfold rnnRow
  dsimp only
  rw [← reverseLine_map (oneHot net.head.inputDim), hin]
  refine ⟨rfl, ?_⟩
  rw [sum_zipWith_reverseLine, ← reverseLine_map]
  · rfl
  · rw [List.length_map, List.length_map, rnnScanH_length, rowInputs_length, reverseLine_length]
    simp only [List.length_zip, reverseLine_length, h1, h2, min_self]

theorem listsOver_reverseLine {A : Type} {alphabet : List A} (h : alphabet.Nodup) (n : ℕ) (b : Bool) :
    ((listsOver alphabet n).map fun l => reverseLine l b).Perm (listsOver alphabet n) := by
  cases b with
  | true => simp [reverseLine]
  | false => exact listsOver_reverse h n

theorem expect_rnnSampleRow {H O : Type} (net : Rnn2D H O) (hh : Normed net.head) (L : ℕ)
    (carry : List H × List (ℕ → ℝ)) (h1 : carry.1.length = L) (h2 : carry.2.length = L) (b : Bool)
    (F : (List H × List (ℕ → ℝ)) × List ℤ → ℝ) :
    expect (rnnSampleRow net carry b) F = ((listsOver (localStates net.head.inputDim) L).map fun x =>
      let r := rnnRow net carry (x.map (oneHot net.head.inputDim)) b
      Real.exp (r.2.sum.re / net.head.logProbFactor) * F (r.1, x)).sum := by
  unfold rnnSampleRow
  rw [expect_bind, expect_rnnSampleH net hh]
  have hlen : ((reverseLine carry.1 b).zip (reverseLine carry.2 b)).length = L := by
    simp only [List.length_zip, reverseLine_length, h1, h2, min_self]
  rw [hlen, ← ((listsOver_reverseLine (localStates_nodup net.head.inputDim) L b).map _).sum_eq, List.map_map]
  congr 1
  apply List.map_congr_left
  intro x hx
  rw [mem_listsOver] at hx
  obtain ⟨e1, e2⟩ := rnnRow_eq net carry x b (h1.trans hx.1.symm) (h2.trans hx.1.symm)
  rw [Function.comp_apply]
  dsimp only
  rw [e1, e2, expect_pure]
  have hl : ((rowScan net (net.zeroCarry 0) (fun _ => 0) ((reverseLine carry.1 b).zip (reverseLine carry.2 b))
      (reverseLine x b)).map Prod.fst).length = (reverseLine x b).length := by
    rw [List.length_map, rowScan_length]
    rw [hlen, reverseLine_length, hx.1]
  rw [List.map_snd_zip (by rw [hl]), List.map_fst_zip (by rw [hl]), reverseLine_twice]

theorem rnnRow_lengths {H O : Type} (net : Rnn2D H O) (L : ℕ) (carry : List H × List (ℕ → ℝ)) (h1 : carry.1.length = L)
    (h2 : carry.2.length = L) (x : List ℤ) (hx : x.length = L) (b : Bool) :
    (rnnRow net carry (x.map (oneHot net.head.inputDim)) b).1.1.length = L ∧
      (rnnRow net carry (x.map (oneHot net.head.inputDim)) b).1.2.length = L := by
  obtain ⟨e1, -⟩ := rnnRow_eq net carry x b (h1.trans hx.symm) (h2.trans hx.symm)
  rw [e1]
  refine ⟨?_, by simpa using hx⟩
  rw [reverseLine_length, List.length_map, rowScan_length, reverseLine_length, hx]
  simp only [List.length_zip, reverseLine_length, h1, h2, hx, min_self]

theorem expect_rnnSampleV {H O : Type} (net : Rnn2D H O) (hh : Normed net.head) (L : ℕ) (n r : ℕ)
    (carry : List H × List (ℕ → ℝ)) (h1 : carry.1.length = L) (h2 : carry.2.length = L) (F : List (List ℤ) → ℝ) :
    expect (rnnSampleV net r carry n) F =
      ((listsOver (listsOver (localStates net.head.inputDim) L) n).map fun x =>
        Real.exp ((rnnScanV net r carry (x.map fun row => row.map (oneHot net.head.inputDim))).sum.re /
          net.head.logProbFactor) * F x).sum := by
  induction n generalizing r carry F with
  | zero => simp [rnnSampleV, expect_pure, listsOver, rnnScanV]
  | succ n ih =>
    rw [rnnSampleV, expect_bind, expect_rnnSampleRow net hh L carry h1 h2, sum_listsOver_succ]
    congr 1
    apply List.map_congr_left
    intro x hx
    rw [mem_listsOver] at hx
    obtain ⟨l1, l2⟩ := rnnRow_lengths net L carry h1 h2 x hx.1 (lineDirection r)
    dsimp only
    rw [expect_bind, ih _ _ l1 l2, ← List.sum_map_mul_left]
    congr 1
    apply List.map_congr_left
    intro l _
    rw [expect_pure, List.map_cons, rnnScanV, List.sum_append, Complex.add_re, add_div, Real.exp_add, mul_assoc]

theorem expect_rnnSampleV_one {H O : Type} (net : Rnn2D H O) (hh : Normed net.head) (n r : ℕ)
    (carry : List H × List (ℕ → ℝ)) : expect (rnnSampleV net r carry n) (fun _ => 1) = 1 := by
  induction n generalizing r carry with
  | zero => simp [rnnSampleV, expect_pure]
  | succ n ih =>
    rw [rnnSampleV, expect_bind]
    simp_rw [expect_bind, expect_pure, ih]
    unfold rnnSampleRow
    simp_rw [expect_bind, expect_pure]
    exact expect_rnnSampleH_one net hh _ _

theorem prob_rnn2d {H O : Type} (net : Rnn2D H O) (hh : Normed net.head) (L : ℕ) {l : List (List ℤ)}
    (hl : l ∈ listsOver (listsOver (localStates net.head.inputDim) L) L) :
    prob (rnn2dSample net L) l = ‖Complex.exp (rnn2d net L l)‖ ^ (1 / net.head.logProbFactor) := by
  rw [prob_eq_expect, rnn2dSample, expect_rnnSampleV net hh L _ _ _ (by simp) (by simp),
    sum_indicator (listsOver_nodup (listsOver_nodup (localStates_nodup _) L) L) hl, norm_exp_rpow]
  rfl

theorem sum_rnn2d {H O : Type} (net : Rnn2D H O) (hh : Normed net.head) (L : ℕ) :
    ∑ x : Fin L → Fin L → Fin net.head.inputDim,
      ‖Complex.exp (rnn2d net L (List.ofFn fun i => List.ofFn fun j => (x i j : ℤ)))‖ ^
        (1 / net.head.logProbFactor) = 1 := by
  rw [sum_listsOver (listsOver (localStates net.head.inputDim) L)
    (fun x : Fin L → Fin net.head.inputDim => List.ofFn fun j => (x j : ℤ))
    (fun f => sum_listsOver (localStates net.head.inputDim) (fun a : Fin net.head.inputDim => (a : ℤ))
      (sum_localStates _) L f) L
    fun l => ‖Complex.exp (rnn2d net L l)‖ ^ (1 / net.head.logProbFactor)]
  refine Eq.trans ?_ (expect_rnnSampleV_one net hh L 0 ((List.range L).map net.zeroCarry, List.replicate L fun _ => 0))
  rw [expect_rnnSampleV net hh L _ _ _ (by simp) (by simp)]
  congr 1
  apply List.map_congr_left
  intro l _
  rw [norm_exp_rpow, mul_one]
  rfl

end JVMC
