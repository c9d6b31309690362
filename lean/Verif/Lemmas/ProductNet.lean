import Verif.Lemmas.ProductState
import Verif.Lemmas.RnnSym
import Verif.Props.PovmMany
import Verif.Spec.ProductState

/-!
# Lemmas about prepared networks: output layers, symmetry operations, outcome probabilities
-/

namespace JVMC

open Spec Matrix

/-! ## The prepared output layer -/

/-- A real array of shape `(H, 3)` in row-major order. -/
noncomputable def kernelArray {H : ℕ} (W : Fin H → Fin 3 → ℝ) : List Dbl :=
  List.ofFn fun k : Fin (H * 3) => .fin (W (finProdFinEquiv.symm k).1 (finProdFinEquiv.symm k).2)

theorem kernelArray_getD {H : ℕ} (W : Fin H → Fin 3 → ℝ) (c : ℝ) (i : Fin H) (j : Fin 3) :
    ((kernelArray W).map fun x => (Dbl.fin c).mul x).getD (i * 3 + j) .nan = .fin (c * W i j) := by
  have hlt : i.val * 3 + j.val < H * 3 := by omega
  rw [List.getD_eq_getElem _ _ (by simpa [kernelArray] using hlt), List.getElem_map]
  unfold kernelArray
  rw [List.getElem_ofFn]
  have : (⟨i.val * 3 + j.val, by simpa using hlt⟩ : Fin (H * 3)) = finProdFinEquiv (i, j) := by
    apply Fin.ext
    change i.val * 3 + j.val = j.val + 3 * i.val
    omega
  rw [this, Equiv.symm_apply_apply]
  rfl

theorem sum_ofFn_fin {H : ℕ} (f : Fin H → ℝ) : Dbl.sum (List.ofFn fun i => Dbl.fin (f i)) = .fin (∑ i, f i) := by
  have : (List.ofFn fun i => Dbl.fin (f i)) = (List.ofFn f).map Dbl.fin := by
    rw [List.map_ofFn]; rfl
  rw [this, sum_fin, List.sum_ofFn]

/-- The output layer with the prepared kernel and any bias. -/
theorem dense_scaled {H : ℕ} (W : Fin H → Fin 3 → ℝ) (c : ℝ) (bias : List Dbl) (o : Fin H → ℝ) (j : Fin 3) :
    denseD 3 ((kernelArray W).map fun x => (Dbl.fin c).mul x) bias o j
      = (Dbl.fin (c * ∑ i, o i * W i j)).add (bias.getD j .nan) := by
  unfold denseD
  congr 1
  simp only [kernelArray_getD]
  have : (fun i : Fin H => (Dbl.fin (o i)).mul (.fin (c * W i j))) = fun i => Dbl.fin (c * (o i * W i j)) := by
    funext i
    change Dbl.fin _ = _
    congr 1
    ring
  rw [this, sum_ofFn_fin, Finset.mul_sum]

theorem productBiases_getD (p : Fin 4 → ℝ) (j : Fin 3) :
    (productBiases p).getD j .nan = (Dbl.quotient (p j.succ) (p 0)).log := by
  unfold productBiases
  rw [List.getD_eq_getElem _ _ (by simp), List.getElem_ofFn]

theorem bias_pos (p : Fin 4 → ℝ) (hp : ∀ a, 0 < p a) (j : Fin 3) :
    (productBiases p).getD j .nan = .fin (Real.log (p j.succ / p 0)) := by
  have := div_pos (hp j.succ) (hp 0)
  rw [productBiases_getD, Dbl.quotient, if_neg (hp 0).ne', Dbl.log, if_neg this.ne', if_pos this]

theorem bias_zero (p : Fin 4 → ℝ) (h0 : p 0 = 0) (j : Fin 3) (hp : 0 < p j.succ) :
    (productBiases p).getD j .nan = .inf := by
  rw [productBiases_getD, Dbl.quotient, if_pos h0, Dbl.infTimes, if_neg hp.ne', if_pos hp, Dbl.log]

theorem logits_congr (n : ℕ) (a b : ℕ → Dbl) (h : ∀ k < n, a k = b k) (j : ℕ) (hj : j < n) :
    logSoftmaxD n a j = logSoftmaxD n b j := by
  unfold logSoftmaxD
  dsimp only
  have e1 : (List.range n).map a = (List.range n).map b :=
    List.map_congr_left fun k hk => h k (List.mem_range.mp hk)
  rw [e1, h j hj]
  congr 3
  exact List.map_congr_left fun k hk => by rw [h k (List.mem_range.mp hk)]

theorem siteTermD_congr (κ : ℝ) (a b : ℕ → Dbl) (h : ∀ j : Fin 3, a j = b j) (x : ℕ → ℝ) :
    siteTermD 4 κ a x = siteTermD 4 κ b x := by
  unfold siteTermD
  congr 2
  refine List.map_congr_left fun j hj => ?_
  unfold logProbsD
  congr 2
  refine logits_congr 4 _ _ (fun k hk => ?_) j (List.mem_range.mp hj)
  by_cases hk0 : k = 0
  · simp [hk0]
  · simp only [if_neg hk0]
    exact h ⟨k - 1, by omega⟩

/-- One site of the prepared network. -/
theorem site_prepared {H : ℕ} (κ : ℝ) (hκ : 0 ≤ κ) (W : Fin H → Fin 3 → ℝ) (p : Fin 4 → ℝ) (hp : ∀ a, 0 < p a)
    (h1 : ∑ a, p a = 1) (o : Fin H → ℝ) (B : ℝ) (hB : ∀ j, |∑ i, o i * W i j| ≤ B) (x : ℤ) (hx : 0 ≤ x ∧ x < 4) :
    |siteTermD 4 κ (denseD 3 ((kernelArray W).map fun x => (Dbl.fin 1e-15).mul x) (productBiases p) o)
        (oneHot 4 x) - κ * Real.log (p (Fin.ofNat 4 x.toNat))| ≤ κ * (2 * (1e-15 * B)) := by
  rw [siteTermD_congr κ _ (fun j => .fin (preparedLogit W p o j)) (fun j => by
    rw [dense_scaled, bias_pos p hp, preparedLogit, dif_pos j.isLt]; rfl), siteTermD_fin 4 (by norm_num)]
  obtain ⟨m, rfl⟩ := Int.eq_ofNat_of_zero_le hx.1
  have hm : m < 4 := by exact_mod_cast hx.2
  have := site_near κ hκ W p hp h1 o B hB ⟨m, hm⟩
  have e : Fin.ofNat 4 ((m : ℤ)).toNat = ⟨m, hm⟩ := Fin.ext (by simp [Nat.mod_eq_of_lt hm])
  rw [e]
  exact this

/-! ## The NaN -/

theorem foldl_nan (l : List Dbl) : l.foldl Dbl.add .nan = .nan := by
  induction l with
  | nil => rfl
  | cons x l ih => rw [List.foldl_cons]; exact ih

theorem add_nan (a : Dbl) : a.add .nan = .nan := by cases a <;> rfl

theorem sum_nan (l : List Dbl) (h : Dbl.nan ∈ l) : Dbl.sum l = .nan := by
  unfold Dbl.sum
  generalize Dbl.fin 0 = a
  induction l generalizing a with
  | nil => simp at h
  | cons x l ih =>
    rw [List.foldl_cons]
    rcases List.mem_cons.mp h with rfl | h
    · rw [add_nan, foldl_nan]
    · exact ih h _

/-- One site of the network, prepared for a state in which the first outcome has probability zero. -/
theorem site_zero {H : ℕ} (κ : ℝ) (W : Fin H → Fin 3 → ℝ) (p : Fin 4 → ℝ) (h0 : p 0 = 0)
    (hp : ∀ j : Fin 3, 0 < p j.succ) (o : Fin H → ℝ) (x : ℕ → ℝ) :
    siteTermD 4 κ (denseD 3 ((kernelArray W).map fun x => (Dbl.fin 1e-15).mul x) (productBiases p) o) x = -35 := by
  rw [siteTermD_congr κ _ (fun _ => .inf) (fun j => by rw [dense_scaled, bias_zero p h0 j (hp j)]; rfl)]
  unfold siteTermD
  rw [sum_nan _ (List.mem_map.mpr ⟨0, by simp, by
    unfold logProbsD logSoftmaxD
    simp [List.range_succ, Dbl.max, Dbl.sub, Dbl.neg, Dbl.add, Dbl.exp, Dbl.sum, Dbl.log, Dbl.mul]⟩)]
  rfl

theorem bias_other_zero (p : Fin 4 → ℝ) (h0 : 0 < p 0) (j : Fin 3) (hp : p j.succ = 0) :
    (productBiases p).getD j .nan = .ninf := by
  rw [productBiases_getD, Dbl.quotient, if_neg h0.ne', hp, zero_div, Dbl.log, if_pos rfl]

theorem bias_other_pos (p : Fin 4 → ℝ) (h0 : 0 < p 0) (j : Fin 3) (hp : 0 < p j.succ) :
    (productBiases p).getD j .nan = .fin (Real.log (p j.succ / p 0)) := by
  have : 0 < p j.succ / p 0 := div_pos hp h0
  rw [productBiases_getD, Dbl.quotient, if_neg h0.ne', Dbl.log, if_neg this.ne', if_pos this]

/-- Logarithmic probabilities if one of the three logits is `-inf`. -/
theorem logProbs_ninf (κ : ℝ) (hκ : 0 < κ) (f : ℕ → ℝ) (a : Fin 3) : ∃ g : ℕ → ℝ, ∀ k < 4,
    logProbsD 4 κ (fun j => if j = a then .ninf else .fin (f j)) k = if k = a + 1 then .ninf else .fin (g k) := by
  have hsum : ∀ x y z : ℝ, 0 < Real.exp x + Real.exp y + Real.exp z := fun x y z => by positivity
  have hk : ∀ g : ℕ → ℝ, (∀ k < 4, logSoftmaxD 4 (fun k => if k = 0 then .fin 0 else
      if k - 1 = a then Dbl.ninf else .fin (f (k - 1))) k = if k = a + 1 then .ninf else .fin (g k)) →
      ∃ g : ℕ → ℝ, ∀ k < 4, logProbsD 4 κ (fun j => if j = a then .ninf else .fin (f j)) k
        = if k = a + 1 then .ninf else .fin (g k) := by
    intro g h
    refine ⟨fun k => κ * g k, fun k hk => ?_⟩
    unfold logProbsD
    rw [h k hk]
    split
    · simp [Dbl.mul, Dbl.infTimes, hκ, hκ.ne', Dbl.neg]
    · rfl
  fin_cases a
  · refine hk (fun k => (if k = 0 then 0 else f (k - 1)) - max (max 0 (f 1)) (f 2)
      - Real.log (Real.exp (-max (max 0 (f 1)) (f 2)) + Real.exp (f 1 - max (max 0 (f 1)) (f 2))
        + Real.exp (f 2 - max (max 0 (f 1)) (f 2)))) ?_
    intro k hk4
    have h1 := hsum (-max (max 0 (f 1)) (f 2)) (f 1 - max (max 0 (f 1)) (f 2)) (f 2 - max (max 0 (f 1)) (f 2))
    unfold logSoftmaxD
    interval_cases k <;> simp [List.range_succ, Dbl.max, Dbl.sub, Dbl.neg, Dbl.add, Dbl.exp, Dbl.sum, Dbl.log, ← sub_eq_add_neg, h1, h1.ne']
  · refine hk (fun k => (if k = 0 then 0 else f (k - 1)) - max (max 0 (f 0)) (f 2)
      - Real.log (Real.exp (-max (max 0 (f 0)) (f 2)) + Real.exp (f 0 - max (max 0 (f 0)) (f 2))
        + Real.exp (f 2 - max (max 0 (f 0)) (f 2)))) ?_
    intro k hk4
    have h1 := hsum (-max (max 0 (f 0)) (f 2)) (f 0 - max (max 0 (f 0)) (f 2)) (f 2 - max (max 0 (f 0)) (f 2))
    unfold logSoftmaxD
    interval_cases k <;> simp [List.range_succ, Dbl.max, Dbl.sub, Dbl.neg, Dbl.add, Dbl.exp, Dbl.sum, Dbl.log, ← sub_eq_add_neg, h1, h1.ne']
  · refine hk (fun k => (if k = 0 then 0 else f (k - 1)) - max (max 0 (f 0)) (f 1)
      - Real.log (Real.exp (-max (max 0 (f 0)) (f 1)) + Real.exp (f 0 - max (max 0 (f 0)) (f 1))
        + Real.exp (f 1 - max (max 0 (f 0)) (f 1)))) ?_
    intro k hk4
    have h1 := hsum (-max (max 0 (f 0)) (f 1)) (f 0 - max (max 0 (f 0)) (f 1)) (f 1 - max (max 0 (f 0)) (f 1))
    unfold logSoftmaxD
    interval_cases k <;> simp [List.range_succ, Dbl.max, Dbl.sub, Dbl.neg, Dbl.add, Dbl.exp, Dbl.sum, Dbl.log, ← sub_eq_add_neg, h1, h1.ne']

/-- One site of the network, prepared for a state in which an outcome other than the first has probability zero. -/
theorem site_other_zero {H : ℕ} (κ : ℝ) (hκ : 0 < κ) (W : Fin H → Fin 3 → ℝ) (p : Fin 4 → ℝ) (h0 : 0 < p 0) (a : Fin 3)
    (ha : p a.succ = 0) (hp : ∀ j : Fin 3, j ≠ a → 0 < p j.succ) (o : Fin H → ℝ) (x : Fin 4) :
    siteTermD 4 κ (denseD 3 ((kernelArray W).map fun x => (Dbl.fin 1e-15).mul x) (productBiases p) o) (oneHot 4 (x : ℤ))
      = if x = a.succ then -dblMax else -35 := by
  rw [siteTermD_congr κ _ (fun j => if j = a then .ninf else
    .fin (if h : j < 3 then 1e-15 * ∑ i, o i * W i ⟨j, h⟩ + Real.log (p (Fin.succ ⟨j, h⟩) / p 0) else 0)) (fun j => by
      rw [dense_scaled]
      by_cases h : j = a
      · rw [h, bias_other_zero p h0 a ha, if_pos rfl]; rfl
      · rw [bias_other_pos p h0 j (hp j h), if_neg (fun h' => h (Fin.ext h')), dif_pos j.isLt]; rfl)]
  obtain ⟨g, hg⟩ := logProbs_ninf κ hκ
    (fun j => if h : j < 3 then 1e-15 * ∑ i, o i * W i ⟨j, h⟩ + Real.log (p (Fin.succ ⟨j, h⟩) / p 0) else 0) a
  unfold siteTermD
  have e : (List.range 4).map (fun j => (logProbsD 4 κ (fun j => if j = a then .ninf else
    .fin (if h : j < 3 then 1e-15 * ∑ i, o i * W i ⟨j, h⟩ + Real.log (p (Fin.succ ⟨j, h⟩) / p 0) else 0)) j).mul
      (.fin (oneHot 4 (x : ℤ) j)))
    = (List.range 4).map fun j : ℕ => (if j = (a : ℕ) + 1 then Dbl.ninf else .fin (g j)).mul (.fin (oneHot 4 (x : ℤ) j)) := by
    refine List.map_congr_left fun j hj => ?_
    rw [hg j (List.mem_range.mp hj)]
  rw [e]
  have key : Dbl.sum ((List.range 4).map fun j : ℕ => (if j = (a : ℕ) + 1 then Dbl.ninf else .fin (g j)).mul
      (.fin (oneHot 4 (x : ℤ) j))) = if x = a.succ then .ninf else .nan := by
    fin_cases a <;> fin_cases x <;>
      simp [List.range_succ, oneHot, Dbl.mul, Dbl.infTimes, Dbl.neg, Dbl.add, Dbl.sum, Fin.ext_iff]
  rw [key]
  split <;> rfl

theorem zipWith_const {A B : Type} (c : ℝ) : ∀ (l : List A) (l' : List B), l.length = l'.length →
    (List.zipWith (fun _ _ => c) l l').sum = l'.length * c
  | [], [], _ => by simp
  | [], _ :: _, h => by simp at h
  | _ :: _, [], h => by simp at h
  | _ :: l, _ :: l', h => by
    rw [List.zipWith_cons_cons, List.sum_cons, zipWith_const c l l' (by simpa using h), List.length_cons]
    push_cast
    ring

/-! ## All sites -/

theorem flatten_rows {L : ℕ} (s : Fin (L * L) → ℤ) : (rowsConfig s).flatten = List.ofFn s := by
  unfold rowsConfig
  rw [List.ofFn_mul]
  congr 2
  funext i
  congr 1
  funext j
  congr 1
  apply Fin.ext
  change j.val + L * i.val = _
  simp [mul_comm, add_comm]

theorem hot_flatten (x : List (List ℤ)) : (x.map fun row => row.map (oneHot 4)).flatten = x.flatten.map (oneHot 4) := by
  rw [List.map_flatten]

/-- All outputs of the cells on a square lattice. -/
noncomputable def latticeOutputs {C O : Type} (cell : C → C → (ℕ → ℝ) → (ℕ → ℝ) → C × O) (zeroCarry : ℕ → C) (L : ℕ)
    (x : List (List ℤ)) : List O :=
  (cellRows cell zeroCarry 0 ((List.range L).map zeroCarry, List.replicate L fun _ => 0)
    (x.map fun row => row.map (oneHot 4))).flatten

theorem latticeOutputs_length {C O : Type} (cell : C → C → (ℕ → ℝ) → (ℕ → ℝ) → C × O) (zeroCarry : ℕ → C) (L : ℕ)
    (s : Fin (L * L) → ℤ) : (latticeOutputs cell zeroCarry L (rowsConfig s)).length = L * L := by
  have h := (cellRows_scan (⟨realHead 4 1 true fun _ _ => 0, cell, zeroCarry⟩ : Rnn2D C O) L
    ((rowsConfig s).map fun row => row.map (oneHot 4)) 0
    ((List.range L).map zeroCarry, List.replicate L fun _ => 0) (by simp) (by simp) (by
      intro y hy
      obtain ⟨row, hr, rfl⟩ := List.mem_map.mp hy
      obtain ⟨i, rfl⟩ := (List.mem_ofFn' _ _).mp hr
      simp)).2
  unfold latticeOutputs
  rw [h, hot_flatten, flatten_rows]
  simp

theorem chain_sum {C O : Type} (κ : ℝ) (dense : O → ℕ → Dbl) (cell : C → (ℕ → ℝ) → C × O) (zeroCarry : C) {L : ℕ}
    (t : Fin L → ℤ) : rnn1dD 4 κ dense cell zeroCarry (listConfig t) =
      (List.zipWith (fun o x => siteTermD 4 κ (dense o) (oneHot 4 x))
        (cellOutputs cell (zeroCarry, fun _ => 0) ((List.ofFn t).map (oneHot 4))) (List.ofFn t)).sum := by
  unfold rnn1dD listConfig
  dsimp only
  rw [List.zipWith_map_right]

theorem lattice_sum {C O : Type} (κ : ℝ) (dense : O → ℕ → Dbl) (cell : C → C → (ℕ → ℝ) → (ℕ → ℝ) → C × O)
    (zeroCarry : ℕ → C) {L : ℕ} (t : Fin (L * L) → ℤ) : rnn2dD 4 κ dense cell zeroCarry L (rowsConfig t) =
      (List.zipWith (fun o x => siteTermD 4 κ (dense o) (oneHot 4 x))
        (latticeOutputs cell zeroCarry L (rowsConfig t)) (List.ofFn t)).sum := by
  unfold rnn2dD latticeOutputs
  dsimp only
  rw [hot_flatten, flatten_rows, List.zipWith_map_right]

/-! ## Symmetry operations that only move the outcomes -/

theorem image_moved {n : ℕ} {o : Matrix (Fin n) (Fin n) ℤ} (ho : SignedPermutation o)
    (h1 : (o *ᵥ fun _ => 1) = fun _ => 1) : ∃ σ : Equiv.Perm (Fin n), ∀ x, imageOf o x = x ∘ σ := by
  obtain ⟨σ, e, he, h⟩ := ho
  refine ⟨σ, fun x => funext fun i => ?_⟩
  have h2 := congrFun h1 i
  rw [h, mul_one] at h2
  subst h2
  unfold imageOf
  rw [h, Int.fdiv_eq_ediv_of_nonneg _ (by norm_num), Function.comp_apply]
  omega

/-- A network that is close to a sum over sites stays so if it is symmetrised. -/
theorem symmetrised_near {n : ℕ} {gens : Set (Matrix (Fin n) (Fin n) ℤ)} {os : List (Matrix (Fin n) (Fin n) ℤ)}
    (hg : IsGroupList gens os) (h1 : ∀ M ∈ gens, (M *ᵥ fun _ => 1) = fun _ => 1) (net : (Fin n → ℤ) → ℝ) (g : Fin 4 → ℝ)
    (δ : ℝ) (hn : ∀ t : Fin n → Fin 4, |net (fun i => (t i : ℤ)) - ∑ i, g (t i)| ≤ δ) (factor : List ℂ)
    (s : Fin n → Fin 4) :
    (symNet avgSep (fun x => ((net x : ℝ) : ℂ)) os factor fun i => (s i : ℤ)).im = 0 ∧
      |(symNet avgSep (fun x => ((net x : ℝ) : ℂ)) os factor fun i => (s i : ℤ)).re - ∑ i, g (s i)| ≤ δ := by
  unfold symNet
  rw [symImages_eq, List.map_map]
  have e : (os.map ((fun x => ((net x : ℝ) : ℂ)) ∘ fun o => imageOf o fun i => (s i : ℤ)))
      = (os.map fun o => net (imageOf o fun i => (s i : ℤ))).map fun c => ((c : ℝ) : ℂ) := by
    rw [List.map_map]; rfl
  rw [e]
  refine avgSep_near _ (by simpa using List.ne_nil_of_mem hg.one) factor _ δ fun c hc => ?_
  obtain ⟨o, ho, rfl⟩ := List.mem_map.mp hc
  obtain ⟨σ, hσ⟩ := image_moved (hg.signed o ho) (ones_closure gens h1 o ((hg.generated o).mp ho))
  rw [hσ, ← Equiv.sum_comp σ fun i => g (s i)]
  exact hn (s ∘ σ)

/-! ## Outcomes of product states -/

theorem ofNat_val (a : Fin 4) : Fin.ofNat 4 ((a : ℕ) : ℤ).toNat = a :=
  Fin.ext (by simp)

theorem outcomeProb_product {V : Type} [Fintype V] [DecidableEq V] (M : Fin 4 → Matrix (Fin 2) (Fin 2) ℂ)
    (v : Fin 3 → ℝ) (a : V → Fin 4) :
    outcomeProb (productPovm M) (productState V v) a = ∏ k, outcomeProb M (oneSpin v) (a k) := by
  unfold outcomeProb productPovm productState
  rw [siteMat_mul, siteMat_trace]

theorem prob_bloch (θ φ : ℝ) (v : Fin 3 → ℝ) (a : Fin 4) :
    outcomeProb (fun a => blochElement (povmVectors θ φ a)) (oneSpin v) a
      = (((1 + ∑ k, povmVectors θ φ a k * v k) / 4 : ℝ) : ℂ) := by
  unfold outcomeProb oneSpin
  dsimp only
  rw [blochElement_entries]
  simp [Matrix.trace, Fin.sum_univ_two, Fin.sum_univ_three]
  linear_combination (-(povmVectors θ φ a 1 : ℂ) * v 1 / 4) * Complex.I_mul_I

/-- The states with names. -/
theorem named_oneSpin (state : String) (v : Fin 3 → ℝ) (h : (state, v) ∈ blochOf) :
    ∃ s, povmState state = .ok s ∧ vecMulVec s (star s) = oneSpin v := by
  have h2 : ((Real.sqrt 2 : ℝ) : ℂ) * (Real.sqrt 2 : ℝ) = 2 := by
    rw [← Complex.ofReal_mul, Real.mul_self_sqrt (by norm_num)]; norm_num
  have h0 : ((Real.sqrt 2 : ℝ) : ℂ) ≠ 0 := by
    intro h; rw [h] at h2; norm_num at h2
  have h3 : ((Real.sqrt 2 : ℝ) : ℂ)⁻¹ * ((Real.sqrt 2 : ℝ) : ℂ)⁻¹ = 1 / 2 := by
    rw [← mul_inv, h2]; norm_num
  have hI := Complex.I_mul_I
  simp only [blochOf, List.mem_cons, Prod.mk.injEq, List.not_mem_nil, or_false] at h
  rcases h with ⟨rfl, rfl⟩ | ⟨rfl, rfl⟩ | ⟨rfl, rfl⟩ | ⟨rfl, rfl⟩ | ⟨rfl, rfl⟩ | ⟨rfl, rfl⟩ <;>
    refine ⟨_, by unfold povmState; simp only [String.reduceEq, if_false, if_true]; rfl, ?_⟩ <;>
    ext i j <;> fin_cases i <;> fin_cases j <;>
    simp [vecMulVec_apply, oneSpin, div_eq_mul_inv] <;>
    first
    | ring1
    | linear_combination h3
    | linear_combination -h3
    | linear_combination Complex.I * h3
    | linear_combination -Complex.I * h3
    | linear_combination (-Complex.I * Complex.I) * h3 - (1 / 2 : ℂ) * hI

/-- The distribution the code computes. -/
theorem particleDistribution (θ φ : ℝ) (state : String) (v : Fin 3 → ℝ) (h : (state, v) ∈ blochOf) :
    get1ParticleDistributions state (fun a => blochElement (povmVectors θ φ a))
      = .ok fun a => (1 + ∑ k, povmVectors θ φ a k * v k) / 4 := by
  obtain ⟨s, hs, hρ⟩ := named_oneSpin state v h
  unfold get1ParticleDistributions
  rw [hs]
  change Except.ok _ = _
  congr 1
  funext a
  rw [distribution_eq (fun a => blochElement (povmVectors θ φ a)), hρ, prob_bloch, Complex.ofReal_re]

theorem particleDistribution_total (θ φ : ℝ) (v : Fin 3 → ℝ) :
    ∑ a, (1 + ∑ k, povmVectors θ φ a k * v k) / 4 = 1 := by
  have h0 := povm_sum θ φ 0
  have h1 := povm_sum θ φ 1
  have h2 := povm_sum θ φ 2
  simp only [Fin.sum_univ_four, Fin.sum_univ_three] at *
  linear_combination (v 0 / 4) * h0 + (v 1 / 4) * h1 + (v 2 / 4) * h2

end JVMC
