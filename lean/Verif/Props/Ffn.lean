import Mathlib.Data.List.GetD
import Mathlib.Tactic.NormNum
import Mathlib.Algebra.BigOperators.Ring.Finset
import Mathlib.Algebra.BigOperators.Fin
import Verif.Model.Ffn

/-! # Properties C83, C84: feed-forward networks, RBMs on lattices with two axes -/

namespace JVMC

/-- The values of all units of a feed-forward network: `x l j` is unit `j` of layer `l`, `size l` the number of
units, `act l` the activation function behind the weights `K l`, `b l`. -/
structure FeedForward (size : ℕ → ℕ) (act : ℕ → ℝ → ℝ) (K : ℕ → ℕ → ℕ → ℝ) (b : ℕ → ℕ → ℝ) (x : ℕ → ℕ → ℝ) : Prop where
  step : ∀ l j, x (l + 1) j = act l (∑ i ∈ Finset.range (size l), x l i * K l i j + b l j)

theorem denseList_getD (features : ℕ) (useBias : Bool) (p : DenseParams) (act : ℝ → ℝ) (x : List ℝ) (j : ℕ)
    (hj : j < features) : ((denseList features useBias p x).map act).getD j 0 =
      act (∑ i ∈ Finset.range x.length, x.getD i 0 * p.kernel i j + (if useBias then p.bias j else 0)) := by
  rw [List.getD_eq_getElem _ _ (by simpa [denseList] using hj)]
  simp [denseList]

/-- The hidden layers compute the units. -/
theorem ffnHidden_units (bias : Bool) (params : ℕ → DenseParams) (size : ℕ → ℕ) (act : ℕ → ℝ → ℝ) (x : ℕ → ℕ → ℝ)
    (hx : FeedForward size act (fun l => (params l).kernel) (fun l j => if bias then (params l).bias j else 0) x)
    (ls : List (ℕ × (ℝ → ℝ))) : ∀ (l : ℕ) (s : List ℝ), s.length = size l → (∀ i < size l, s.getD i 0 = x l i) →
    (∀ k (hk : k < ls.length), ls[k].1 = size (l + k + 1) ∧ ls[k].2 = act (l + k)) →
    (ffnHidden bias params l ls s).length = size (l + ls.length) ∧
      ∀ i < size (l + ls.length), (ffnHidden bias params l ls s).getD i 0 = x (l + ls.length) i := by
  induction ls with
  | nil => exact fun l s h1 h2 _ => ⟨h1, h2⟩
  | cons a ls ih =>
    intro l s h1 h2 h3
    obtain ⟨features, f⟩ := a
    have ha := h3 0 (by simp)
    simp only [List.getElem_cons_zero, Nat.add_zero] at ha
    have := ih (l + 1) ((denseList features bias (params l) s).map f) (by simp [denseList, ha.1]) (by
      intro i hi
      rw [denseList_getD features bias (params l) f s i (by rw [ha.1]; exact hi), hx.step l i, ha.2, h1]
      congr 2
      apply Finset.sum_congr rfl
      intro i' hi'
      rw [h2 i' (Finset.mem_range.mp hi')]) (by
      intro k hk
      have := h3 (k + 1) (by simpa using hk)
      simp only [List.getElem_cons_succ] at this
      rw [show l + 1 + k = l + (k + 1) by omega]
      exact this)
    unfold ffnHidden
    rw [List.length_cons, show l + (ls.length + 1) = l + 1 + ls.length by omega]
    exact this

/-- **C83**: `FFN(layers, bias, actFun)` is the feed-forward network with these hidden layers on the spins
`2 s - 1`, and one output unit. Hidden layer `l` uses activation function `l`, the last one if there are too few;
the output unit always uses the last activation function. -/
theorem c83_ffn (layers : List ℕ) (bias : Bool) (actFun : List (ℝ → ℝ)) (hact : actFun ≠ [])
    (params : ℕ → DenseParams) (s : List ℤ) (x : ℕ → ℕ → ℝ)
    (h0 : ∀ i < s.length, x 0 i = 2 * s.getD i 0 - 1)
    (hx : FeedForward (fun l => if l = 0 then s.length else layers.getD (l - 1) 1)
      (fun l => if l < layers.length then actFun.getD l (actFun.getLast hact) else actFun.getLast hact)
      (fun l => (params l).kernel) (fun l j => if bias then (params l).bias j else 0) x) :
    ffn layers bias actFun params s = .ok (x (layers.length + 1) 0) := by
  have hlast : actFun.getLast? = some (actFun.getLast hact) := List.getLast?_eq_some_getLast hact
  have hacts : ffnActs layers.length actFun =
      .ok (actFun ++ List.replicate (layers.length + 1 - actFun.length) (actFun.getLast hact)) := by
    unfold ffnActs
    rw [hlast]
  have hlast2 : (actFun ++ List.replicate (layers.length + 1 - actFun.length) (actFun.getLast hact)).getLast? =
      some (actFun.getLast hact) := by
    rw [List.getLast?_append, hlast]
    cases h : layers.length + 1 - actFun.length with
    | zero => rfl
    | succ n => rw [List.getLast?_replicate]; simp
  have hlen : (actFun ++ List.replicate (layers.length + 1 - actFun.length) (actFun.getLast hact)).dropLast.length ≥
      layers.length := by
    rw [List.length_dropLast, List.length_append, List.length_replicate]
    omega
  unfold ffn
  rw [hacts]
  change (match (actFun ++ List.replicate (layers.length + 1 - actFun.length) (actFun.getLast hact)).getLast? with
    | none => Except.error PyErr.indexError
    | some act => _) = _
  rw [hlast2]
  have hu := ffnHidden_units bias params _ _ x hx (layers.zip (actFun ++ List.replicate
    (layers.length + 1 - actFun.length) (actFun.getLast hact)).dropLast) 0
    (s.map fun a => ((2 * a - 1 : ℤ) : ℝ)) (by simp) (by
      intro i hi
      rw [if_pos rfl] at hi
      rw [h0 i hi, List.getD_eq_getElem _ _ (by simpa using hi), List.getD_eq_getElem _ _ hi, List.getElem_map]
      push_cast
      rfl) (by
      intro k hk
      rw [List.length_zip] at hk
      have hk1 : k < layers.length := lt_of_lt_of_le hk (min_le_left _ _)
      rw [List.getElem_zip]
      refine ⟨?_, ?_⟩
      · rw [if_neg (by omega), List.getD_eq_getElem _ _ (by omega)]
        simp
      · dsimp only
        rw [Nat.zero_add, if_pos hk1, List.getElem_dropLast]
        by_cases h : k < actFun.length
        · rw [List.getElem_append_left h, List.getD_eq_getElem _ _ h]
        · rw [List.getElem_append_right (by omega), List.getElem_replicate, List.getD_eq_default _ _ (by omega)])
  rw [List.length_zip, min_eq_left hlen, Nat.zero_add] at hu
  change Except.ok _ = _
  congr 1
  generalize ffnHidden bias params 0 _ _ = y at hu ⊢
  rw [hx.step layers.length 0, if_neg (lt_irrefl _)]
  simp only [denseList, List.range_one, List.map_cons, List.map_nil, List.sum_cons, List.sum_nil, add_zero]
  rw [hu.1]
  refine congrArg (fun z => actFun.getLast hact (z + _)) ?_
  apply Finset.sum_congr rfl
  intro i hi
  rw [hu.2 i (Finset.mem_range.mp hi)]

/-- C83: without activation functions the call raises. -/
theorem c83_no_activation (layers : List ℕ) (bias : Bool) (params : ℕ → DenseParams) (s : List ℤ) :
    ffn layers bias [] params s = .error .indexError := rfl

/-- Every feed-forward network has values. -/
theorem feedForward_exists (size : ℕ → ℕ) (act : ℕ → ℝ → ℝ) (K : ℕ → ℕ → ℕ → ℝ) (b : ℕ → ℕ → ℝ) (x0 : ℕ → ℝ) :
    ∃ x, x 0 = x0 ∧ FeedForward size act K b x :=
  ⟨fun l => Nat.rec x0 (fun l x j => act l (∑ i ∈ Finset.range (size l), x i * K l i j + b l j)) l, rfl,
    ⟨fun _ _ => rfl⟩⟩

/-- **C83**: without biases, with odd activation functions in the hidden layers and an even last one, a
configuration and its spin flip have the same amplitude. -/
theorem c83_spin_flip (layers : List ℕ) (actFun : List (ℝ → ℝ)) (hact : actFun ≠ [])
    (hodd : ∀ l < layers.length, ∀ y, (actFun.getD l (actFun.getLast hact)) (-y) =
      -(actFun.getD l (actFun.getLast hact)) y)
    (heven : ∀ y, (actFun.getLast hact) (-y) = (actFun.getLast hact) y)
    (params : ℕ → DenseParams) (s : List ℤ) :
    ffn layers false actFun params (s.map fun a => 1 - a) = ffn layers false actFun params s := by
  obtain ⟨x, hx0, hx⟩ := feedForward_exists (fun l => if l = 0 then s.length else layers.getD (l - 1) 1)
    (fun l => if l < layers.length then actFun.getD l (actFun.getLast hact) else actFun.getLast hact)
    (fun l => (params l).kernel) (fun l j => if false then (params l).bias j else 0)
    (fun i => 2 * s.getD i 0 - 1)
  have hx' : FeedForward (fun l => if l = 0 then (s.map fun a => 1 - a).length else layers.getD (l - 1) 1)
      (fun l => if l < layers.length then actFun.getD l (actFun.getLast hact) else actFun.getLast hact)
      (fun l => (params l).kernel) (fun l j => if false then (params l).bias j else 0)
      (fun l i => if l ≤ layers.length then - x l i else x l i) := by
    refine ⟨fun l j => ?_⟩
    rw [List.length_map]
    by_cases hl : l < layers.length
    · rw [if_pos (by omega), if_pos hl, hx.step l j]
      rw [if_pos hl, ← hodd l hl]
      simp only [if_pos hl.le, Bool.false_eq_true, if_false, add_zero]
      rw [← Finset.sum_neg_distrib]
      exact congrArg _ (Finset.sum_congr rfl fun i _ => (neg_mul _ _).symm)
    · by_cases he : l = layers.length
      · rw [if_neg (by omega), if_neg hl, hx.step l j]
        rw [if_neg hl, ← heven]
        simp only [if_pos he.le, Bool.false_eq_true, if_false, add_zero]
        rw [← Finset.sum_neg_distrib]
        exact congrArg _ (Finset.sum_congr rfl fun i _ => (neg_mul _ _).symm)
      · rw [if_neg (by omega), if_neg hl, hx.step l j]
        rw [if_neg hl]
        simp only [if_neg (show ¬ l ≤ layers.length by omega)]
  rw [c83_ffn layers false actFun hact params s x (fun i _ => by rw [hx0]) hx,
    c83_ffn layers false actFun hact params _ _ (by
      intro i hi
      rw [List.length_map] at hi
      rw [if_pos (Nat.zero_le _), hx0]
      dsimp only
      rw [List.getD_eq_getElem _ _ hi, List.getD_eq_getElem _ _ (by simpa using hi),
        List.getElem_map]
      push_cast
      ring) hx', if_neg (by omega)]

/-- Two hidden units with the odd function `x³`, output `x²`. -/
example (params : ℕ → DenseParams) : ffn [2] false [fun x => x ^ 3, fun x => x ^ 2] params [1, 1, 0, 1] =
    ffn [2] false [fun x => x ^ 3, fun x => x ^ 2] params [0, 0, 1, 0] :=
  c83_spin_flip [2] [fun x => x ^ 3, fun x => x ^ 2] (by simp) (by
      intro l hl y
      have : l = 0 := by simpa using hl
      subst this
      simp only [List.getD_cons_zero]
      ring) (by
      intro y
      simp) params [0, 0, 1, 0]

/-! ## C84: lattices with two axes -/

/-- **C84** for `CpxRBM`: a configuration with two axes is treated like the chain of all its sites. -/
theorem c84_cpx_rbm {a n m : ℕ} (kernel : Fin (a * n) → Fin m → ℂ) (bias : Option (Fin m → ℂ)) (neg : Fin m → Bool)
    (s : Fin a → Fin n → ℤ) (chain : Fin (a * n) → ℤ)
    (h : ∀ i j, chain (finProdFinEquiv (i, j)) = s i j) :
    cpxRbm2D kernel bias neg s = cpxRbm kernel bias neg chain := by
  unfold cpxRbm2D
  congr 1
  funext k
  rw [← h, Prod.mk.eta, Equiv.apply_symm_apply]

/-- **C84** for `RBM`, which holds if the first axis has length one. Missing: other lattices, see
`c84_rbm_violated`. -/
theorem c84_rbm_partial {n m : ℕ} (kernel : Fin n → Fin m → ℝ) (bias : Option (Fin m → ℝ)) (s : Fin 1 → Fin n → ℤ) :
    realRbm2D kernel bias s = realRbm kernel bias (s 0) := by
  unfold realRbm2D realRbm
  simp

/-- C84, disagreement: on lattices with more rows the wave function of `RBM` is a product over the rows for all
parameters, there is no coupling between different rows: the amplitude is the product of the amplitudes of the rows,
all with the same parameters. -/
theorem c84_rbm_rows {a n m : ℕ} (kernel : Fin n → Fin m → ℝ) (bias : Option (Fin m → ℝ)) (s : Fin a → Fin n → ℤ) :
    Real.exp (realRbm2D kernel bias s) = ∏ i, Real.exp (realRbm kernel bias (s i)) := by
  rw [← Real.exp_sum]
  rfl

/-- C84, disagreement: the function of four sites `log cosh (Σ s)` is an RBM with one hidden unit on the chain of the
sites, but no `RBM` on the two-by-two lattice has the same amplitudes. -/
theorem c84_rbm_violated : ∃ kernel : Fin (2 * 2) → Fin 1 → ℝ,
    ¬ ∃ (m : ℕ) (kernel' : Fin 2 → Fin m → ℝ) (bias : Option (Fin m → ℝ)), ∀ s : Fin 2 → Fin 2 → ℤ,
      realRbm2D kernel' bias s = realRbm kernel none fun k => s (finProdFinEquiv.symm k).1 (finProdFinEquiv.symm k).2 := by
  refine ⟨fun _ _ => 1, ?_⟩
  rintro ⟨m, kernel', bias, h⟩
  have e : ∀ s : Fin 2 → Fin 2 → ℤ, realRbm2D kernel' bias s = realRbm kernel' bias (s 0) + realRbm kernel' bias (s 1) := by
    intro s
    unfold realRbm2D realRbm
    rw [Fin.sum_univ_two]
  have g : ∀ s : Fin 2 → Fin 2 → ℤ, realRbm (m := 1) (fun _ _ => 1) none
      (fun k : Fin (2 * 2) => s (finProdFinEquiv.symm k).1 (finProdFinEquiv.symm k).2) =
      Real.log (Real.cosh ((2 * s 0 0 - 1) + (2 * s 0 1 - 1) + (2 * s 1 0 - 1) + (2 * s 1 1 - 1))) := by
    intro s
    unfold realRbm dense
    have : ∀ f : Fin (2 * 2) → ℝ, ∑ k, f k = f (finProdFinEquiv (0, 0)) + f (finProdFinEquiv (0, 1)) +
        f (finProdFinEquiv (1, 0)) + f (finProdFinEquiv (1, 1)) := by
      intro f
      rw [← finProdFinEquiv.sum_comp, Fintype.sum_prod_type, Fin.sum_univ_two, Fin.sum_univ_two, Fin.sum_univ_two]
      ring
    rw [Fin.sum_univ_one, this]
    simp only [Equiv.symm_apply_apply]
    push_cast
    simp
  have h11 := (e _).symm.trans ((h fun _ _ => 1).trans (g fun _ _ => 1))
  have h00 := (e _).symm.trans ((h fun _ _ => 0).trans (g fun _ _ => 0))
  have h10 := (e _).symm.trans ((h fun i _ => if i = 0 then 1 else 0).trans (g fun i _ => if i = 0 then 1 else 0))
  simp only [Fin.isValue, if_true, one_ne_zero, if_false] at h11 h00 h10
  have hne : Real.log (Real.cosh 4) ≠ 0 := by
    have : 1 < Real.cosh 4 := Real.one_lt_cosh.mpr (by norm_num)
    exact (Real.log_pos this).ne'
  norm_num at h11 h00 h10
  apply hne
  linarith

example : Real.exp (realRbm2D (a := 3) (n := 2) (m := 1) (fun _ _ => 1) none ![![1, 0], ![0, 0], ![1, 1]]) =
    ∏ i, Real.exp (realRbm (n := 2) (m := 1) (fun _ _ => 1) none (![![1, 0], ![0, 0], ![1, 1]] i)) :=
  c84_rbm_rows _ _ _

end JVMC
