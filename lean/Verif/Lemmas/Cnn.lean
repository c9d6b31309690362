import Verif.Spec.Cnn
import Mathlib.Data.Nat.ModEq

/-!
# Lemmas about convolutional networks
-/

namespace JVMC

open Spec

theorem mem_box {d : ℕ} {shape : Fin d → ℕ} {i : Fin d → ℕ} : i ∈ box shape ↔ ∀ k, i k < shape k := by
  simp [box, Fintype.mem_piFinset]

/-- `b` is `a` moved by `v`, periodically. -/
structure ArrTranslate {d : ℕ} {R : Type} (v : Fin d → ℕ) (a b : NetArr d R) : Prop where
  shape : b.shape = a.shape
  chan : b.chan = a.chan
  val : ∀ (i : Fin d → ℕ) c, b.val (fun k => (i k + v k) % a.shape k) c = a.val (fun k => i k % a.shape k) c

theorem box_shift {d : ℕ} {R : Type} [AddCommMonoid R] (shape v : Fin d → ℕ) (hs : ∀ k, 0 < shape k)
    (f : (Fin d → ℕ) → R) : ∑ i ∈ box shape, f (fun k => (i k + v k) % shape k) = ∑ i ∈ box shape, f i := by
  refine Finset.sum_nbij' (fun i k => (i k + v k) % shape k) (fun i k => (i k + (shape k - v k % shape k)) % shape k)
    ?_ ?_ ?_ ?_ ?_
  · intro i _
    exact mem_box.mpr fun k => Nat.mod_lt _ (hs k)
  · intro i _
    exact mem_box.mpr fun k => Nat.mod_lt _ (hs k)
  · intro i hi
    funext k
    have h1 := mem_box.mp hi k
    have h2 := Nat.mod_lt (v k) (hs k)
    dsimp only
    rw [Nat.mod_add_mod, Nat.add_assoc]
    have h3 := Nat.div_add_mod (v k) (shape k)
    have h4 : i k + (v k + (shape k - v k % shape k)) = i k + shape k * (v k / shape k + 1) := by
      rw [Nat.mul_add, Nat.mul_one]
      omega
    rw [h4, Nat.add_mul_mod_self_left, Nat.mod_eq_of_lt h1]
  · intro i hi
    funext k
    have h1 := mem_box.mp hi k
    have h2 := Nat.mod_lt (v k) (hs k)
    dsimp only
    rw [Nat.mod_add_mod, Nat.add_assoc]
    have h3 := Nat.div_add_mod (v k) (shape k)
    have h4 : i k + (shape k - v k % shape k + v k) = i k + shape k * (v k / shape k + 1) := by
      rw [Nat.mul_add, Nat.mul_one]
      omega
    rw [h4, Nat.add_mul_mod_self_left, Nat.mod_eq_of_lt h1]
  · intro i _
    rfl

theorem netSum_translate {d : ℕ} {R : Type} [AddCommMonoid R] {v : Fin d → ℕ} {a b : NetArr d R}
    (h : ArrTranslate v a b) (hs : ∀ k, 0 < a.shape k) : netSum b = netSum a := by
  unfold netSum
  rw [h.shape, h.chan, ← box_shift a.shape v hs]
  apply Finset.sum_congr rfl
  intro i hi
  apply Finset.sum_congr rfl
  intro c _
  rw [h.val]
  congr 1
  funext k
  exact Nat.mod_eq_of_lt (mem_box.mp hi k)

theorem netSize_translate {d : ℕ} {R : Type} {v : Fin d → ℕ} {a b : NetArr d R} (h : ArrTranslate v a b) :
    netSize b = netSize a := by
  unfold netSize
  rw [h.shape, h.chan]

/-- The shape does not change in a layer with unit strides. -/
theorem cnnLayer_shape {d : ℕ} {R : Type} [Semiring R] (F strides : Fin d → ℕ) (hF : ∀ k, 0 < F k)
    (hst : ∀ k, strides k = 1) (a : NetArr d R) (hs : ∀ k, 0 < a.shape k) (l : Layer d R) :
    (cnnLayer F strides true a l).shape = a.shape := by
  funext k
  have h1 := hs k
  have h2 := hF k
  simp only [cnnLayer, if_true, NetArr.mapVal, convValid, padWrap, hst]
  rw [Nat.div_one]
  omega

/-- Layers of the network commute with translations. -/
theorem cnnLayer_translate {d : ℕ} {R : Type} [Semiring R] (F strides : Fin d → ℕ) (hF : ∀ k, 0 < F k)
    (hst : ∀ k, strides k = 1) {v : Fin d → ℕ} {a b : NetArr d R} (h : ArrTranslate v a b)
    (hs : ∀ k, 0 < a.shape k) (l : Layer d R) :
    ArrTranslate v (cnnLayer F strides true a l) (cnnLayer F strides true b l) := by
  refine ⟨?_, rfl, ?_⟩
  · rw [cnnLayer_shape F strides hF hst a hs, cnnLayer_shape F strides hF hst b (by rw [h.shape]; exact hs), h.shape]
  · intro i c
    rw [cnnLayer_shape F strides hF hst a hs]
    simp only [cnnLayer, if_true, NetArr.mapVal, convValid, padWrap, hst, h.shape, h.chan, Nat.mul_one]
    congr 2
    apply Finset.sum_congr rfl
    intro q _
    apply Finset.sum_congr rfl
    intro c' _
    congr 1
    have h1 : (fun k => ((i k + v k) % a.shape k + q k) % a.shape k) =
        fun k => ((i k + q k) + v k) % a.shape k := by
      funext k
      rw [Nat.mod_add_mod]
      congr 1
      omega
    rw [h1, h.val fun k => i k + q k]
    congr 1
    funext k
    rw [Nat.mod_add_mod]

theorem layers_translate {d : ℕ} {R : Type} [Semiring R] (F strides : Fin d → ℕ) (hF : ∀ k, 0 < F k)
    (hst : ∀ k, strides k = 1) (layers : List (Layer d R)) : ∀ {v : Fin d → ℕ} {a b : NetArr d R},
    ArrTranslate v a b → (∀ k, 0 < a.shape k) →
    ArrTranslate v (layers.foldl (cnnLayer F strides true) a) (layers.foldl (cnnLayer F strides true) b) ∧
      ∀ k, 0 < (layers.foldl (cnnLayer F strides true) a).shape k := by
  induction layers with
  | nil => exact fun h hs => ⟨h, hs⟩
  | cons l layers ih =>
    intro v a b h hs
    exact ih (cnnLayer_translate F strides hF hst h hs l) (by rw [cnnLayer_shape F strides hF hst a hs]; exact hs)

theorem input_translate {d : ℕ} {R : Type} [Ring R] {shape v : Fin d → ℕ} (hs : ∀ k, 0 < shape k)
    {s s' : (Fin d → ℕ) → ℤ} (h : IsTranslate shape v s s') :
    ArrTranslate v (netInput (R := R) shape s) (netInput shape s') := by
  refine ⟨rfl, rfl, fun i c => ?_⟩
  have h1 := h (fun k => i k % shape k) fun k => Nat.mod_lt _ (hs k)
  simp only [Nat.mod_add_mod] at h1
  simp only [netInput]
  rw [h1]

/-- The same entries inside the array. -/
structure ArrAgree {d : ℕ} {R : Type} (a b : NetArr d R) : Prop where
  shape : a.shape = b.shape
  chan : a.chan = b.chan
  val : ∀ i, (∀ k, i k < b.shape k) → a.val i = b.val i

theorem netSum_agree {d : ℕ} {R : Type} [AddCommMonoid R] {a b : NetArr d R} (h : ArrAgree a b) :
    netSum a = netSum b ∧ netSize a = netSize b := by
  unfold netSum netSize
  rw [h.shape, h.chan]
  refine ⟨Finset.sum_congr rfl fun i hi => ?_, rfl⟩
  rw [h.val i (mem_box.mp hi)]

/-- With filters of size one nothing is padded. -/
theorem cpxCnnLayer_one {d : ℕ} {R : Type} [Semiring R] (F strides : Fin d → ℕ) (hF : ∀ k, F k = 1)
    (hst : ∀ k, strides k = 1) {a b : NetArr d R} (hab : ArrAgree a b) (hs : ∀ k, 0 < b.shape k) (l : Layer d R) :
    ArrAgree (cpxCnnLayer F strides true a l) (cnnLayer F strides true b l) := by
  have hF' : F = fun _ => 1 := funext hF
  have hst' : strides = fun _ => 1 := funext hst
  subst hF' hst'
  have ht : ∀ n, sameTotal n 1 1 = 0 := by
    intro n
    unfold sameTotal
    rw [Nat.div_one, Nat.add_sub_cancel]
    simp
  refine ⟨?_, rfl, ?_⟩
  · funext k
    simp [cpxCnnLayer, cnnLayer, convSame, ht, convValid, padZero, padWrap, NetArr.mapVal, hab.shape]
  · intro i hi
    rw [cnnLayer_shape _ _ (fun _ => Nat.one_pos) (fun _ => rfl) b hs] at hi
    funext c
    simp only [cpxCnnLayer, cnnLayer, if_true, convSame, ht, convValid, padZero, padWrap, NetArr.mapVal, hab.chan,
      hab.shape]
    congr 2
    apply Finset.sum_congr rfl
    intro q hq
    apply Finset.sum_congr rfl
    intro c' _
    congr 1
    rw [if_pos]
    · rw [hab.val _ fun k => Nat.mod_lt _ (hs k)]
      rfl
    · intro k
      have h1 := mem_box.mp hq k
      have h2 := hi k
      omega

theorem layers_one {d : ℕ} {R : Type} [Semiring R] (F strides : Fin d → ℕ) (hF : ∀ k, F k = 1)
    (hst : ∀ k, strides k = 1) (layers : List (Layer d R)) : ∀ {a b : NetArr d R}, ArrAgree a b → (∀ k, 0 < b.shape k) →
    ArrAgree (layers.foldl (cpxCnnLayer F strides true) a) (layers.foldl (cnnLayer F strides true) b) := by
  induction layers with
  | nil => exact fun h _ => h
  | cons l layers ih =>
    intro a b h hs
    refine ih (cpxCnnLayer_one F strides hF hst h hs l) ?_
    rw [cnnLayer_shape F strides (fun k => by rw [hF k]; exact Nat.one_pos) hst b hs]
    exact hs

/-- Sums over one axis. -/
theorem sum_box_one {R : Type} [AddCommMonoid R] (n : ℕ) (f : (Fin 1 → ℕ) → R) :
    ∑ i ∈ box (fun _ : Fin 1 => n), f i = ∑ j ∈ Finset.range n, f fun _ => j := by
  refine Finset.sum_nbij' (fun i => i 0) (fun j _ => j) ?_ ?_ ?_ ?_ ?_
  · intro i hi
    exact Finset.mem_range.mpr (mem_box.mp hi 0)
  · intro j hj
    exact mem_box.mpr fun _ => Finset.mem_range.mp hj
  · intro i _
    funext k
    rw [Subsingleton.elim k 0]
  · intro j _
    rfl
  · intro i _
    congr 1
    funext k
    rw [Subsingleton.elim k 0]

end JVMC
