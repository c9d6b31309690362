import Verif.Lemmas.ParamTree
import Verif.Lemmas.Rnn
import Verif.Lemmas.SymNet
import Verif.Spec.MasterTdvp

/-!
# Lemmas about networks close to product states
-/

namespace JVMC

open Spec

/-! ## Finite numbers -/

theorem foldl_add_fin (l : List ℝ) : ∀ a : ℝ, (l.map Dbl.fin).foldl Dbl.add (.fin a) = .fin (a + l.sum) := by
  induction l with
  | nil => intro a; simp
  | cons x l ih =>
    intro a
    rw [List.map_cons, List.foldl_cons, Dbl.add, ih, List.sum_cons, add_assoc]

theorem sum_fin (l : List ℝ) : Dbl.sum (l.map Dbl.fin) = .fin l.sum := by
  rw [Dbl.sum, foldl_add_fin, zero_add]

theorem foldl_max_fin (l : List ℝ) : ∀ a : ℝ, (l.map Dbl.fin).foldl Dbl.max (.fin a) = .fin (l.foldl max a) := by
  induction l with
  | nil => intro a; simp
  | cons x l ih =>
    intro a
    rw [List.map_cons, List.foldl_cons, List.foldl_cons, Dbl.max, ih]

theorem max_fin (l : List ℝ) (h : l ≠ []) : (l.map Dbl.fin).foldl Dbl.max .ninf = .fin (l.max?.getD 0) := by
  cases l with
  | nil => exact absurd rfl h
  | cons x l =>
    rw [List.map_cons, List.foldl_cons, List.max?_cons']
    exact foldl_max_fin l x

theorem logSoftmaxD_fin (n : ℕ) (hn : 0 < n) (a : ℕ → ℝ) (j : ℕ) :
    logSoftmaxD n (fun k => .fin (a k)) j = .fin (logSoftmax n a j) := by
  unfold logSoftmaxD logSoftmax
  dsimp only
  have h1 : (List.range n).map (fun k => Dbl.fin (a k)) = ((List.range n).map a).map Dbl.fin := by
    rw [List.map_map]; rfl
  rw [h1, max_fin _ (by simp; omega)]
  set m := ((List.range n).map a).max?.getD 0
  have h2 : (List.range n).map (fun k => ((Dbl.fin (a k)).sub (.fin m)).exp)
      = ((List.range n).map fun k => Real.exp (a k - m)).map Dbl.fin := by
    rw [List.map_map]
    refine List.map_congr_left fun k _ => ?_
    change Dbl.fin (Real.exp (a k + -m)) = _
    rw [← sub_eq_add_neg]
    rfl
  rw [h2, sum_fin]
  have h3 : ((List.range n).map fun k => Real.exp (a k - m)).sum = ∑ k ∈ Finset.range n, Real.exp (a k - m) := by
    rw [Finset.sum_range, ← List.sum_ofFn, List.ofFn_eq_map, ← List.map_coe_finRange_eq_range, List.map_map]
    rfl
  have hpos : 0 < ∑ k ∈ Finset.range n, Real.exp (a k - m) :=
    Finset.sum_pos (fun _ _ => Real.exp_pos _) ⟨0, Finset.mem_range.mpr hn⟩
  rw [h3, Dbl.log, if_neg hpos.ne', if_pos hpos]
  change Dbl.fin (a j + -m + -_) = _
  congr 1

/-- A site with finite logits: the same as in the model without infinities. -/
theorem siteTermD_fin {O : Type} (n : ℕ) (hn : 0 < n) (κ : ℝ) (dense : O → ℕ → ℝ) (o : O) (x : ℕ → ℝ) :
    siteTermD n κ (fun j => .fin (dense o j)) x = ((realHead n κ true dense).select o x).re := by
  unfold siteTermD
  have h : (List.range n).map (fun j => (logProbsD n κ (fun j => .fin (dense o j)) j).mul (.fin (x j)))
      = ((List.range n).map fun j => κ * logSoftmax n (fun k => if k = 0 then 0 else dense o (k - 1)) j * x j).map
        Dbl.fin := by
    rw [List.map_map]
    refine List.map_congr_left fun j _ => ?_
    unfold logProbsD
    have : (fun k => if k = 0 then Dbl.fin 0 else Dbl.fin (dense o (k - 1)))
        = fun k => Dbl.fin (if k = 0 then 0 else dense o (k - 1)) := by
      funext k
      by_cases hk : k = 0 <;> simp [hk]
    rw [this, logSoftmaxD_fin n hn]
    rfl
  rw [h, sum_fin]
  change List.sum _ = _
  unfold RnnHead.select
  rw [Complex.re_sum]
  change _ = ∑ j ∈ Finset.range n, ((logCoeffsToLogProbs n κ true (dense o) j) * (x j : ℂ)).re
  rw [Finset.sum_range, ← List.map_coe_finRange_eq_range, List.map_map, ← List.ofFn_eq_map, List.sum_ofFn]
  refine Finset.sum_congr rfl fun j _ => ?_
  rw [Complex.mul_re, logCoeffs_re]
  simp

theorem cellOutputs_scan {C O : Type} (net : Rnn1D C O) (xs : List (ℕ → ℝ)) : ∀ c : C × (ℕ → ℝ),
    rnnScan net c xs = List.zipWith (fun o y => net.head.select o y) (cellOutputs net.cell c xs) xs := by
  induction xs with
  | nil => intro c; rfl
  | cons x xs ih =>
    intro c
    rw [rnnScan, cellOutputs, List.zipWith_cons_cons, ih]

theorem cellOutputs_length {C O : Type} (cell : C → (ℕ → ℝ) → C × O) (xs : List (ℕ → ℝ)) : ∀ c : C × (ℕ → ℝ),
    (cellOutputs cell c xs).length = xs.length := by
  induction xs with
  | nil => intro c; rfl
  | cons x xs ih => intro c; rw [cellOutputs, List.length_cons, ih, List.length_cons]

theorem re_sum_list (l : List ℂ) : l.sum.re = (l.map Complex.re).sum := by
  induction l with
  | nil => rfl
  | cons z l ih => rw [List.sum_cons, Complex.add_re, ih, List.map_cons, List.sum_cons]

theorem rnn1dD_fin {C O : Type} (n : ℕ) (hn : 0 < n) (κ : ℝ) (dense : O → ℕ → ℝ) (cell : C → (ℕ → ℝ) → C × O)
    (zeroCarry : C) (x : List ℤ) :
    rnn1dD n κ (fun o j => .fin (dense o j)) cell zeroCarry x
      = (rnn1d ⟨realHead n κ true dense, cell, zeroCarry⟩ x).re := by
  unfold rnn1dD rnn1d
  dsimp only
  rw [cellOutputs_scan, re_sum_list, List.map_zipWith]
  simp only [siteTermD_fin n hn]
  rfl

theorem cellScanH_eq {C O : Type} (net : Rnn2D C O) (xs : List (C × (ℕ → ℝ) × (ℕ → ℝ))) : ∀ c : C,
    rnnScanH net c xs = cellScanH net.cell c xs := by
  induction xs with
  | nil => intro c; rfl
  | cons x xs ih => intro c; rw [rnnScanH, cellScanH, ih]

theorem cellScanH_length {C O : Type} (cell : C → C → (ℕ → ℝ) → (ℕ → ℝ) → C × O)
    (xs : List (C × (ℕ → ℝ) × (ℕ → ℝ))) : ∀ c : C, (cellScanH cell c xs).length = xs.length := by
  induction xs with
  | nil => intro c; rfl
  | cons x xs ih => intro c; rw [cellScanH, List.length_cons, ih, List.length_cons]

theorem cellRow_length {C O : Type} (cell : C → C → (ℕ → ℝ) → (ℕ → ℝ) → C × O) (c : C) (b : Bool) (L : ℕ)
    (carry : List C × List (ℕ → ℝ)) (h1 : carry.1.length = L) (h2 : carry.2.length = L) (x : List (ℕ → ℝ))
    (hx : x.length = L) :
    (cellScanH cell c ((reverseLine carry.1 b).zip
      ((((fun _ => 0) :: reverseLine x b).dropLast).zip (reverseLine carry.2 b)))).length = L := by
  rw [cellScanH_length, List.length_zip, List.length_zip, List.length_dropLast, List.length_cons,
    reverseLine_length, reverseLine_length, reverseLine_length, h1, h2, hx]
  simp

theorem cellRows_scan {C O : Type} (net : Rnn2D C O) (L : ℕ) (xs : List (List (ℕ → ℝ))) :
    ∀ (r : ℕ) (carry : List C × List (ℕ → ℝ)), carry.1.length = L → carry.2.length = L → (∀ x ∈ xs, x.length = L) →
    rnnScanV net r carry xs = List.zipWith (fun o y => net.head.select o y)
      (cellRows net.cell net.zeroCarry r carry xs).flatten xs.flatten ∧
    ((cellRows net.cell net.zeroCarry r carry xs).flatten).length = (xs.flatten).length := by
  induction xs with
  | nil => intro r carry _ _ _; exact ⟨rfl, rfl⟩
  | cons x xs ih =>
    intro r carry h1 h2 h
    have hl := cellRow_length net.cell (net.zeroCarry 0) (lineDirection r) L carry h1 h2 x (h x (by simp))
    obtain ⟨i1, i2⟩ := ih (r + 1) (reverseLine ((cellScanH net.cell (net.zeroCarry 0)
      ((reverseLine carry.1 (lineDirection r)).zip ((((fun _ => 0) :: reverseLine x (lineDirection r)).dropLast).zip
        (reverseLine carry.2 (lineDirection r))))).map Prod.fst) (lineDirection r), x)
      (by rw [reverseLine_length, List.length_map, hl]) (h x (by simp)) fun y hy => h y (by simp [hy])
    rw [rnnScanV, cellRows, rnnRow]
    dsimp only
    rw [cellScanH_eq, List.flatten_cons, List.flatten_cons, List.length_append, List.length_append, i2,
      reverseLine_length, List.length_map, hl, h x (by simp)]
    refine ⟨?_, rfl⟩
    rw [i1, List.zipWith_append]
    rw [reverseLine_length, List.length_map, hl, h x (by simp)]

theorem rnn2dD_fin {C O : Type} (n : ℕ) (hn : 0 < n) (κ : ℝ) (dense : O → ℕ → ℝ)
    (cell : C → C → (ℕ → ℝ) → (ℕ → ℝ) → C × O) (zeroCarry : ℕ → C) (L : ℕ) (x : List (List ℤ))
    (hx : ∀ row ∈ x, row.length = L) :
    rnn2dD n κ (fun o j => .fin (dense o j)) cell zeroCarry L x
      = (rnn2d ⟨realHead n κ true dense, cell, zeroCarry⟩ L x).re := by
  unfold rnn2dD rnn2d
  dsimp only
  rw [(cellRows_scan ⟨realHead n κ true dense, cell, zeroCarry⟩ L _ 0 _ (by simp) (by simp) (by
    intro y hy
    obtain ⟨row, hr, rfl⟩ := List.mem_map.mp hy
    rw [List.length_map]
    exact hx row hr)).1, re_sum_list, List.map_zipWith]
  simp only [siteTermD_fin n hn]
  rfl

/-! ## Close to a product -/

/-- `log_softmax` changes by at most twice the change of its argument. -/
theorem logSoftmax_lipschitz (n : ℕ) (hn : 0 < n) (a b : ℕ → ℝ) (δ : ℝ) (h : ∀ k < n, |a k - b k| ≤ δ) (j : ℕ)
    (hj : j < n) : |logSoftmax n a j - logSoftmax n b j| ≤ 2 * δ := by
  have hpos : ∀ c : ℕ → ℝ, 0 < ∑ k ∈ Finset.range n, Real.exp (c k) := fun c =>
    Finset.sum_pos (fun _ _ => Real.exp_pos _) ⟨0, Finset.mem_range.mpr hn⟩
  have hlog : ∀ a b : ℕ → ℝ, (∀ k < n, |a k - b k| ≤ δ) →
      Real.log (∑ k ∈ Finset.range n, Real.exp (a k)) ≤ Real.log (∑ k ∈ Finset.range n, Real.exp (b k)) + δ := by
    intro a b h
    rw [← Real.log_exp δ, ← Real.log_mul (hpos b).ne' (Real.exp_pos _).ne', Finset.sum_mul]
    refine Real.log_le_log (hpos a) (Finset.sum_le_sum fun k hk => ?_)
    rw [← Real.exp_add]
    have := (abs_le.mp (h k (Finset.mem_range.mp hk))).2
    exact Real.exp_le_exp.mpr (by linarith)
  have h1 := hlog a b h
  have h2 := hlog b a fun k hk => by rw [abs_sub_comm]; exact h k hk
  have h3 := abs_le.mp (h j hj)
  rw [logSoftmax_eq n hn, logSoftmax_eq n hn, abs_le]
  constructor <;> linarith

/-- With the logits `log(p_k / p_0)` the logarithmic probabilities are `log p_k`. -/
theorem logSoftmax_log (p : Fin 4 → ℝ) (hp : ∀ a, 0 < p a) (h1 : ∑ a, p a = 1) (j : Fin 4) :
    logSoftmax 4 (fun k => if k = 0 then 0 else if h : k < 4 then Real.log (p ⟨k, h⟩ / p 0) else 0) j = Real.log (p j) := by
  rw [logSoftmax_eq 4 (by norm_num)]
  have hs : ∀ k : Fin 4, (if (k : ℕ) = 0 then (0 : ℝ) else if h : (k : ℕ) < 4 then Real.log (p ⟨k, h⟩ / p 0) else 0)
      = Real.log (p k / p 0) := by
    intro k
    by_cases hk : (k : ℕ) = 0
    · have : k = 0 := Fin.ext hk
      subst this
      simp [div_self (hp 0).ne']
    · rw [if_neg hk, dif_pos k.isLt]
  rw [Finset.sum_range]
  simp only [hs]
  have : ∑ k, Real.exp (Real.log (p k / p 0)) = 1 / p 0 := by
    rw [← h1, Finset.sum_div]
    exact Finset.sum_congr rfl fun k _ => Real.exp_log (div_pos (hp k) (hp 0))
  rw [this, Real.log_div (hp j).ne' (hp 0).ne', Real.log_div one_ne_zero (hp 0).ne', Real.log_one]
  ring

/-- The finite logits after the preparation. -/
noncomputable def preparedLogit {H : ℕ} (W : Fin H → Fin 3 → ℝ) (p : Fin 4 → ℝ) (o : Fin H → ℝ) (j : ℕ) : ℝ :=
  if h : j < 3 then 1e-15 * (∑ i, o i * W i ⟨j, h⟩) + Real.log (p (Fin.succ ⟨j, h⟩) / p 0) else 0

theorem site_near {H : ℕ} (κ : ℝ) (hκ : 0 ≤ κ) (W : Fin H → Fin 3 → ℝ) (p : Fin 4 → ℝ) (hp : ∀ a, 0 < p a)
    (h1 : ∑ a, p a = 1) (o : Fin H → ℝ) (B : ℝ) (hB : ∀ j, |∑ i, o i * W i j| ≤ B) (j : Fin 4) :
    |((realHead 4 κ true (preparedLogit W p)).select o (oneHot 4 (j : ℤ))).re - κ * Real.log (p j)|
      ≤ κ * (2 * (1e-15 * B)) := by
  have hB0 : 0 ≤ B := (abs_nonneg _).trans (hB 0)
  have := select_oneHot (realHead 4 κ true (preparedLogit W p)) o (x := (j : ℤ)) (mem_localStates.mpr
    ⟨by positivity, by exact_mod_cast j.isLt⟩)
  change (realHead 4 κ true (preparedLogit W p)).select o (oneHot 4 (j : ℤ)) = _ at this
  rw [this]
  change |(logCoeffsToLogProbs 4 κ true (preparedLogit W p o) ((j : ℤ)).toNat).re - _| ≤ _
  rw [logCoeffs_re, Int.toNat_natCast, ← logSoftmax_log p hp h1 j, ← mul_sub, abs_mul, abs_of_nonneg hκ]
  refine mul_le_mul_of_nonneg_left ?_ hκ
  refine logSoftmax_lipschitz 4 (by norm_num) _ _ _ (fun k hk => ?_) j j.isLt
  by_cases hk0 : k = 0
  · simp only [if_pos hk0, sub_self, abs_zero]
    positivity
  · simp only [if_neg hk0, dif_pos hk]
    rw [preparedLogit, dif_pos (by omega)]
    have : (Fin.succ ⟨k - 1, by omega⟩ : Fin 4) = ⟨k, hk⟩ := by
      apply Fin.ext
      simp only [Fin.val_succ]
      omega
    rw [this, add_sub_cancel_right, abs_mul, abs_of_pos (by norm_num : (0 : ℝ) < 1e-15)]
    exact mul_le_mul_of_nonneg_left (hB _) (by norm_num)

/-- A sum over sites whose terms are close to given values. -/
theorem sum_near {A : Type} (f : A → ℤ → ℝ) (g : ℤ → ℝ) (δ : ℝ) : ∀ (os : List A) (xs : List ℤ),
    os.length = xs.length → (∀ o ∈ os, ∀ x ∈ xs, |f o x - g x| ≤ δ) →
    |(List.zipWith f os xs).sum - (xs.map g).sum| ≤ xs.length * δ
  | [], [], _, _ => by simp
  | [], _ :: _, h, _ => by simp at h
  | _ :: _, [], h, _ => by simp at h
  | o :: os, x :: xs, h, hb => by
    have ih := sum_near f g δ os xs (by simpa using h) fun o' ho' x' hx' => hb o' (by simp [ho']) x' (by simp [hx'])
    have h0 := hb o (by simp) x (by simp)
    rw [List.zipWith_cons_cons, List.sum_cons, List.map_cons, List.sum_cons, List.length_cons]
    rw [abs_le] at *
    push_cast
    constructor <;> linarith

/-! ## The average over symmetry operations -/

/-- Real coefficients close to a common value. -/
theorem avgSep_near (cs : List ℝ) (h : cs ≠ []) (b : List ℂ) (m δ : ℝ) (hc : ∀ c ∈ cs, |c - m| ≤ δ) :
    (avgSep (cs.map fun c => ((c : ℝ) : ℂ)) b).im = 0 ∧ |(avgSep (cs.map fun c => ((c : ℝ) : ℂ)) b).re - m| ≤ δ := by
  have hn : (0 : ℝ) < cs.length := by exact_mod_cast List.length_pos_iff.mpr h
  unfold avgSep
  rw [List.map_map, List.map_map, List.length_map]
  have e1 : ((fun c : ℂ => Complex.exp (Complex.I * (c.im : ℂ))) ∘ fun c : ℝ => (c : ℂ)) = fun _ => 1 := by
    funext c; simp
  have e2 : ((fun c : ℂ => Real.exp (2 * c.re)) ∘ fun c : ℝ => (c : ℂ)) = fun c => Real.exp (2 * c) := by
    funext c; simp
  have e3 : (List.map (fun _ : ℝ => (1 : ℂ)) cs).sum / (cs.length : ℂ) = 1 := by
    rw [List.map_const', List.sum_replicate, nsmul_eq_mul, mul_one, div_self]
    exact_mod_cast hn.ne'
  rw [e1, e2, e3, Complex.arg_one]
  have e4 : (0.5 : ℂ) = ((0.5 : ℝ) : ℂ) := by push_cast; norm_num
  rw [e4, ← Complex.ofReal_mul, Complex.ofReal_zero, mul_zero, add_zero, Complex.ofReal_im, Complex.ofReal_re]
  refine ⟨rfl, ?_⟩
  have lo : ∀ cs : List ℝ, (∀ c ∈ cs, m - δ ≤ c) →
      cs.length * Real.exp (2 * (m - δ)) ≤ (cs.map fun c => Real.exp (2 * c)).sum := by
    intro cs
    induction cs with
    | nil => simp
    | cons c cs ih =>
      intro h
      rw [List.length_cons, List.map_cons, List.sum_cons]
      have h1 := ih fun c' hc' => h c' (by simp [hc'])
      have h2 : Real.exp (2 * (m - δ)) ≤ Real.exp (2 * c) := Real.exp_le_exp.mpr (by linarith [h c (by simp)])
      push_cast
      linarith
  have up : ∀ cs : List ℝ, (∀ c ∈ cs, c ≤ m + δ) →
      (cs.map fun c => Real.exp (2 * c)).sum ≤ cs.length * Real.exp (2 * (m + δ)) := by
    intro cs
    induction cs with
    | nil => simp
    | cons c cs ih =>
      intro h
      rw [List.length_cons, List.map_cons, List.sum_cons]
      have h1 := ih fun c' hc' => h c' (by simp [hc'])
      have h2 : Real.exp (2 * c) ≤ Real.exp (2 * (m + δ)) := Real.exp_le_exp.mpr (by linarith [h c (by simp)])
      push_cast
      linarith
  have l1 := lo cs fun c hc' => by linarith [(abs_le.mp (hc c hc')).1]
  have l2 := up cs fun c hc' => by linarith [(abs_le.mp (hc c hc')).2]
  have g1 : Real.exp (2 * (m - δ)) ≤ (cs.map fun c => Real.exp (2 * c)).sum / cs.length := by
    rw [le_div_iff₀ hn]; linarith
  have g2 : (cs.map fun c => Real.exp (2 * c)).sum / cs.length ≤ Real.exp (2 * (m + δ)) := by
    rw [div_le_iff₀ hn]; linarith
  have k1 := Real.log_le_log (Real.exp_pos _) g1
  have k2 := Real.log_le_log (lt_of_lt_of_le (Real.exp_pos _) g1) g2
  rw [Real.log_exp] at k1 k2
  rw [abs_le]
  norm_num
  constructor <;> linarith

/-! ## Averages -/

/-- Averages of distributions with similar logarithms. -/
theorem mean_near {C : Type} [Fintype C] (f Q O : C → ℝ) (hQ : ∀ s, 0 < Q s) (h1 : ∑ s, Q s = 1) (η : ℝ)
    (hf : ∀ s, |f s - Real.log (Q s)| ≤ η) (K : ℝ) (hO : ∀ s, |O s| ≤ K) :
    |outcomeMean (distribution f) O - ∑ s, Q s * O s| ≤ K * (Real.exp (2 * η) - 1) := by
  have hne : Nonempty C := by
    by_contra h
    rw [not_nonempty_iff] at h
    simp at h1
  have hη : 0 ≤ η := (abs_nonneg _).trans (hf (Classical.choice hne))
  have lo : ∀ s, Q s * Real.exp (-η) ≤ Real.exp (f s) := by
    intro s
    rw [← Real.exp_log (hQ s), ← Real.exp_add]
    exact Real.exp_le_exp.mpr (by linarith [(abs_le.mp (hf s)).1])
  have up : ∀ s, Real.exp (f s) ≤ Q s * Real.exp η := by
    intro s
    rw [← Real.exp_log (hQ s), ← Real.exp_add]
    exact Real.exp_le_exp.mpr (by linarith [(abs_le.mp (hf s)).2])
  set Z := ∑ s, Real.exp (f s) with hZ
  have Zlo : Real.exp (-η) ≤ Z := by
    calc Real.exp (-η) = ∑ s, Q s * Real.exp (-η) := by rw [← Finset.sum_mul, h1, one_mul]
      _ ≤ Z := Finset.sum_le_sum fun s _ => lo s
  have Zup : Z ≤ Real.exp η := by
    calc Z ≤ ∑ s, Q s * Real.exp η := Finset.sum_le_sum fun s _ => up s
      _ = Real.exp η := by rw [← Finset.sum_mul, h1, one_mul]
  have Zpos : 0 < Z := lt_of_lt_of_le (Real.exp_pos _) Zlo
  have hd : ∀ s, |distribution f s - Q s| ≤ Q s * (Real.exp (2 * η) - 1) := by
    intro s
    have e1 : Real.exp (2 * η) = Real.exp η * Real.exp η := by rw [← Real.exp_add]; ring_nf
    have e2 : Real.exp (-η) * Real.exp η = 1 := by rw [← Real.exp_add]; simp
    have hE : 1 ≤ Real.exp η := Real.one_le_exp hη
    have d1 : distribution f s ≤ Q s * Real.exp (2 * η) := by
      unfold distribution
      rw [div_le_iff₀ Zpos]
      calc Real.exp (f s) ≤ Q s * Real.exp η := up s
        _ = Q s * Real.exp (2 * η) * Real.exp (-η) := by
          rw [e1]; linear_combination (-(Q s * Real.exp η)) * e2
        _ ≤ Q s * Real.exp (2 * η) * Z := mul_le_mul_of_nonneg_left Zlo (by have := hQ s; positivity)
    have d2 : Q s * Real.exp (-(2 * η)) ≤ distribution f s := by
      unfold distribution
      rw [le_div_iff₀ Zpos]
      calc Q s * Real.exp (-(2 * η)) * Z ≤ Q s * Real.exp (-(2 * η)) * Real.exp η :=
            mul_le_mul_of_nonneg_left Zup (by have := hQ s; positivity)
        _ = Q s * Real.exp (-η) := by rw [mul_assoc, ← Real.exp_add]; ring_nf
        _ ≤ Real.exp (f s) := lo s
    have d3 : 2 ≤ Real.exp (2 * η) + Real.exp (-(2 * η)) := by
      have ha := Real.add_one_le_exp (2 * η)
      have hb := Real.add_one_le_exp (-(2 * η))
      linarith
    rw [abs_le]
    have := hQ s
    constructor <;> nlinarith
  have : outcomeMean (distribution f) O - ∑ s, Q s * O s = ∑ s, (distribution f s - Q s) * O s := by
    unfold outcomeMean
    rw [← Finset.sum_sub_distrib]
    exact Finset.sum_congr rfl fun s _ => by ring
  rw [this]
  refine (Finset.abs_sum_le_sum_abs _ _).trans ?_
  have hK : 0 ≤ K := (abs_nonneg _).trans (hO (Classical.choice hne))
  calc ∑ s, |(distribution f s - Q s) * O s| ≤ ∑ s, Q s * (Real.exp (2 * η) - 1) * K := by
        refine Finset.sum_le_sum fun s _ => ?_
        rw [abs_mul]
        exact mul_le_mul (hd s) (hO s) (abs_nonneg _) ((abs_nonneg _).trans (hd s))
    _ = K * (Real.exp (2 * η) - 1) := by
        rw [← Finset.sum_mul, ← Finset.sum_mul, h1]; ring

end JVMC
