import Mathlib.Tactic.Linarith
import Verif.Props.Cnn

/-! # Property C60: the formula that a convolutional network computes -/

namespace JVMC

open Spec

theorem cnnLayer_textbook {d : ℕ} {R : Type} [Semiring R] (F strides : Fin d → ℕ) (hF : ∀ k, 0 < F k)
    (hst : ∀ k, 0 < strides k) (periodic : Bool) (x : NetArr d R) (hs : ∀ k, 0 < x.shape k) (l : Layer d R) :
    cnnLayer F strides periodic x l =
      ⟨textbookShape F strides periodic x.shape, l.features,
        textbookLayer F strides (fun k => if periodic then 0 else F k - 1) periodic x.shape x.chan l.act
          l.params.kernel (fun c => if l.useBias then l.params.bias c else 0) x.val⟩ := by
  unfold cnnLayer convValid NetArr.mapVal
  dsimp only
  congr 1
  · funext k
    have h1 := hF k
    have h2 := hst k
    have h3 := hs k
    unfold textbookShape
    cases periodic with
    | true =>
      simp only [if_true, padWrap, Nat.add_zero]
      have : x.shape k + strides k - 1 = (x.shape k + (F k - 1) - F k) + strides k := by omega
      rw [this, Nat.add_div_right _ h2]
    | false =>
      simp only [Bool.false_eq_true, if_false, padZero]
      have : x.shape k + (F k - 1) + strides k - 1 = (F k - 1 + x.shape k + (F k - 1) - F k) + strides k := by omega
      rw [this, Nat.add_div_right _ h2]
  · funext i c
    unfold textbookLayer box
    congr 2
    apply Finset.sum_congr rfl
    intro q _
    cases periodic with
    | true =>
      apply Finset.sum_congr rfl
      intro c' _
      simp only [if_true, padWrap, continued]
      congr 3
    | false =>
      apply Finset.sum_congr rfl
      intro c' _
      simp only [Bool.false_eq_true, if_false, padZero, continued]
      have h : (∀ k, F k - 1 ≤ i k * strides k + q k ∧ i k * strides k + q k < F k - 1 + x.shape k) ↔
          ∀ k, 0 ≤ ((i k : ℤ) * strides k + q k) - ((F k - 1 : ℕ) : ℤ) ∧
            ((i k : ℤ) * strides k + q k) - ((F k - 1 : ℕ) : ℤ) < x.shape k := by
        apply forall_congr'
        intro k
        have e : (i k : ℤ) * strides k = ((i k * strides k : ℕ) : ℤ) := by push_cast; rfl
        rw [e]
        omega
      by_cases hc : ∀ k, F k - 1 ≤ i k * strides k + q k ∧ i k * strides k + q k < F k - 1 + x.shape k
      · rw [if_pos hc, if_pos (h.mp hc)]
        congr 2
        funext k
        have e : (i k : ℤ) * strides k = ((i k * strides k : ℕ) : ℤ) := by push_cast; rfl
        rw [e]
        omega
      · rw [if_neg hc, if_neg (fun hh => hc (h.mpr hh))]

theorem textbookShape_pos {d : ℕ} (F strides : Fin d → ℕ) (periodic : Bool) (shape : Fin d → ℕ)
    (hst : ∀ k, 0 < strides k) (hs : ∀ k, 0 < shape k) (k : Fin d) : 0 < textbookShape F strides periodic shape k := by
  unfold textbookShape
  apply Nat.div_pos _ (hst k)
  have := hs k
  omega

/-- **C60**: what `CNN` computes. Every layer is a convolution of the periodically continued (or zero padded)
field, with the given strides, biases where they are enabled and the activation function, and the result is
normalised by the square root of the number of entries; for lattices of every dimension and shape, all
filters, strides, numbers of channels and activation functions. -/
theorem c60_cnn_formula (d : ℕ) (F strides : Fin d → ℕ) (hF : ∀ k, 0 < F k) (hst : ∀ k, 0 < strides k)
    (periodic : Bool) (layers : List (Layer d ℝ)) (shape : Fin d → ℕ) (hs : ∀ k, 0 < shape k)
    (s : (Fin d → ℕ) → ℤ) :
    cnn F strides periodic layers shape s =
      textbookCnn F strides periodic (layers.map fun l =>
        (l.features, l.act, l.params.kernel, fun c => if l.useBias then l.params.bias c else 0))
        shape 1 (fun i _ => 2 * s i - 1) := by
  have h : ∀ (layers : List (Layer d ℝ)) (x : NetArr d ℝ), (∀ k, 0 < x.shape k) →
      (let y := layers.foldl (cnnLayer F strides periodic) x; netSum y / Real.sqrt (netSize y)) =
      textbookCnn F strides periodic (layers.map fun l =>
        (l.features, l.act, l.params.kernel, fun c => if l.useBias then l.params.bias c else 0))
        x.shape x.chan x.val := by
    intro layers
    induction layers with
    | nil => exact fun x _ => rfl
    | cons l layers ih =>
      intro x hx
      rw [List.foldl_cons, List.map_cons, cnnLayer_textbook F strides hF hst periodic x hx l]
      exact ih _ (textbookShape_pos F strides periodic x.shape hst hx)
  have h1 := h layers (netInput shape s) hs
  unfold cnn
  rw [h1]
  have h2 : (netInput (R := ℝ) shape s).val = fun i _ => 2 * (s i : ℝ) - 1 := by
    funext i c
    simp [netInput]
  rw [h2]
  rfl

/-- A layer of `CpxCNN` without periodic boundary conditions and with unit strides: the convolution of the
zero-padded field, centred on the filter, on the same lattice. -/
theorem c60_cpx_open (d : ℕ) (F : Fin d → ℕ) (hF : ∀ k, 0 < F k) (x : NetArr d ℂ) (hs : ∀ k, 0 < x.shape k)
    (l : Layer d ℂ) :
    cpxCnnLayer F (fun _ => 1) false x l =
      ⟨x.shape, l.features, textbookLayer F (fun _ => 1) (fun k => (F k - 1) / 2) false x.shape x.chan l.act
          l.params.kernel (fun c => if l.useBias then l.params.bias c else 0) x.val⟩ := by
  have ht : ∀ k, sameTotal (x.shape k) (F k) 1 = F k - 1 := by
    intro k
    have := hF k
    have := hs k
    unfold sameTotal
    rw [Nat.div_one]
    omega
  unfold cpxCnnLayer convSame convValid NetArr.mapVal
  simp only [Bool.false_eq_true, if_false, padZero, ht]
  congr 1
  · funext k
    have := hF k
    have := hs k
    rw [Nat.div_one]
    omega
  · funext i c
    unfold textbookLayer box
    congr 2
    apply Finset.sum_congr rfl
    intro q _
    apply Finset.sum_congr rfl
    intro c' _
    simp only [Bool.false_eq_true, if_false, continued]
    have h : (∀ k, (F k - 1) / 2 ≤ i k * 1 + q k ∧ i k * 1 + q k < (F k - 1) / 2 + x.shape k) ↔
        ∀ k, 0 ≤ ((i k : ℤ) * ((1 : ℕ) : ℤ) + q k) - (((F k - 1) / 2 : ℕ) : ℤ) ∧
          ((i k : ℤ) * ((1 : ℕ) : ℤ) + q k) - (((F k - 1) / 2 : ℕ) : ℤ) < x.shape k := by
      apply forall_congr'
      intro k
      omega
    by_cases hc : ∀ k, (F k - 1) / 2 ≤ i k * 1 + q k ∧ i k * 1 + q k < (F k - 1) / 2 + x.shape k
    · rw [if_pos hc, if_pos (h.mp hc)]
      congr 2
      funext k
      omega
    · rw [if_neg hc, if_neg (fun hh => hc (h.mpr hh))]

/-- One layer on a chain of four sites with stride two: explicitly. -/
example (p : ConvParams 1 ℝ) : cnn (fun _ => 2) (fun _ => 2) true [⟨1, fun x => x ^ 2, true, p⟩] (fun _ => 4)
      (fun i => if i 0 = 3 then 1 else 0) =
    ((-p.kernel (fun _ => 0) 0 0 - p.kernel (fun _ => 1) 0 0 + p.bias 0) ^ 2 +
      (-p.kernel (fun _ => 0) 0 0 + p.kernel (fun _ => 1) 0 0 + p.bias 0) ^ 2) / Real.sqrt 2 := by
  have hb : ∀ (n : ℕ) (f : (Fin 1 → ℕ) → ℝ), ∑ q ∈ Fintype.piFinset (fun _ : Fin 1 => Finset.range n), f q =
      ∑ j ∈ Finset.range n, f fun _ => j := fun n f => sum_box_one n f
  rw [c60_cnn_formula 1 _ _ (fun _ => by norm_num) (fun _ => by norm_num) true _ _ (fun _ => by norm_num)]
  simp only [List.map_cons, List.map_nil, textbookCnn, textbookShape, textbookLayer, continued, hb, if_true,
    Finset.sum_range_succ, Finset.sum_range_zero]
  norm_num [hb, Finset.sum_range_succ, show Int.toNat 2 = 2 from rfl, show Int.toNat 3 = 3 from rfl]
  ring

end JVMC
