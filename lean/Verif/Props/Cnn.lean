import Mathlib.Tactic.NormNum
import Verif.Lemmas.Cnn
import Verif.Lemmas.SymNet
import Verif.Model.Rbm

/-!
# Properties of convolutional networks (C60, C74)
-/

namespace JVMC

open Spec

/-- C60 for `CNN`: with periodic boundary conditions and unit strides, a configuration and its translates have the
same output, for lattices of any dimension and shape, and all filters, channels, activation functions, biases and
parameters. -/
theorem c60_cnn (d : ℕ) (F strides shape : Fin d → ℕ) (hF : ∀ k, 0 < F k) (hst : ∀ k, strides k = 1)
    (hs : ∀ k, 0 < shape k) (layers : List (Layer d ℝ)) (v : Fin d → ℕ) (s s' : (Fin d → ℕ) → ℤ)
    (h : IsTranslate shape v s s') : cnn F strides true layers shape s' = cnn F strides true layers shape s := by
  have h1 := layers_translate F strides hF hst layers (input_translate (R := ℝ) hs h) hs
  unfold cnn
  dsimp only
  rw [netSum_translate h1.1 h1.2, netSize_translate h1.1]

/-- C60 for `CpxCNN`, whose convolutions pad the (already periodically extended) input with zeros: proved for
filters of diameter one. Missing: larger filters, for which the claim is false (`c60_cpx_violated`). -/
theorem c60_cpx_partial (d : ℕ) (F strides shape : Fin d → ℕ) (hF : ∀ k, F k = 1) (hst : ∀ k, strides k = 1)
    (hs : ∀ k, 0 < shape k) (layers : List (Layer d ℂ)) (v : Fin d → ℕ) (s s' : (Fin d → ℕ) → ℤ)
    (h : IsTranslate shape v s s') :
    cpxCnn F strides true layers shape s' = cpxCnn F strides true layers shape s := by
  have h1 := layers_translate F strides (fun k => by rw [hF k]; exact Nat.one_pos) hst layers
    (input_translate (R := ℂ) hs h) hs
  have h2 : ∀ x : NetArr d ℂ, ArrAgree x x := fun x => ⟨rfl, rfl, fun _ _ => rfl⟩
  have h3 := fun t => netSum_agree (layers_one F strides hF hst layers (h2 (netInput shape t)) hs)
  unfold cpxCnn
  dsimp only
  rw [(h3 s).1, (h3 s).2, (h3 s').1, (h3 s').2, netSum_translate h1.1 h1.2, netSize_translate h1.1]

/-- Filters of size one on a chain of four sites. -/
example (layers : List (Layer 1 ℂ)) :
    cpxCnn (fun _ => 1) (fun _ => 1) true layers (fun _ => 4) (fun i => if i 0 = 1 then 1 else 0) =
      cpxCnn (fun _ => 1) (fun _ => 1) true layers (fun _ => 4) fun i => if i 0 = 3 then 1 else 0 := by
  refine c60_cpx_partial 1 _ (fun _ => 1) (fun _ => 4) (fun _ => rfl) (fun _ => rfl) (by decide) layers (fun _ => 2) _ _ ?_
  intro i hi
  have h0 := hi 0
  simp only at h0 ⊢
  congr 1
  apply propext
  omega

/-- The default activation function `poly6`, three sites, filter diameter three. -/
theorem c60_cpx_violated : ∃ (p : ConvParams 1 ℂ) (s s' : (Fin 1 → ℕ) → ℤ),
    IsTranslate (fun _ => 3) (fun _ => 2) s s' ∧ (∀ i, s i = 0 ∨ s i = 1) ∧
    cpxCnn (fun _ => 3) (fun _ => 1) true [⟨1, actPoly6, false, p⟩] (fun _ => 3) s' ≠
      cpxCnn (fun _ => 3) (fun _ => 1) true [⟨1, actPoly6, false, p⟩] (fun _ => 3) s := by
  refine ⟨⟨fun q _ _ => if q 0 = 0 then 0 else 1, fun _ => 0⟩, fun i => if i 0 = 0 then 1 else 0,
    fun i => if i 0 = 2 then 1 else 0, ?_, ?_, ?_⟩
  · intro i hi
    have h := hi 0
    dsimp only at h ⊢
    by_cases h0 : i 0 = 0
    · simp [h0]
    · have : (i 0 + 2) % 3 ≠ 2 := by omega
      simp [h0, this]
  · intro i
    dsimp only
    split <;> simp
  · have ht : sameTotal (3 + (3 - 1)) 3 1 = 2 := by decide
    unfold cpxCnn
    dsimp only
    have hsz : ∀ s : (Fin 1 → ℕ) → ℤ, netSize ((([⟨1, actPoly6, false,
        ⟨fun q _ _ => if q 0 = 0 then 0 else 1, fun _ => 0⟩⟩] : List (Layer 1 ℂ)).foldl
        (cpxCnnLayer (fun _ => 3) (fun _ => 1) true) (netInput (fun _ => 3) s))) = 5 := by
      intro s
      simp [netSize, cpxCnnLayer, convSame, convValid, padZero, padWrap, netInput, NetArr.mapVal, ht]
    rw [hsz, hsz]
    have h5 : ((Real.sqrt ((5 : ℕ) : ℝ) : ℝ) : ℂ) ≠ 0 := by
      have : Real.sqrt ((5 : ℕ) : ℝ) ≠ 0 := by
        rw [Real.sqrt_ne_zero']
        norm_num
      exact_mod_cast this
    intro h
    rw [div_left_inj' h5] at h
    revert h
    simp only [List.foldl_cons, List.foldl_nil, netSum, cpxCnnLayer, if_true, convSame, convValid, padZero, padWrap,
      netInput, NetArr.mapVal, ht, sum_box_one, Finset.sum_range_succ, Finset.sum_range_zero, Nat.reduceAdd,
      Nat.reduceSub, Nat.reduceDiv, Nat.reduceMul, Nat.reduceMod, Nat.reduceLT, Nat.reduceLeDiff, forall_const]
    norm_num [actPoly6]

/-- `CNN` builds its layers from the documented arguments: one layer per entry of `channels`, the last activation
function is repeated, and the first layer has its own bias flag. -/
theorem c60_layers (d : ℕ) (c : ℕ) (channels : List ℕ) (f : ℝ → ℝ) (actFun : List (ℝ → ℝ)) (bias firstLayerBias : Bool)
    (params : ℕ → ConvParams d ℝ) : ∃ layers, netLayers (c :: channels) (f :: actFun) bias firstLayerBias params = .ok layers ∧
      layers.length = channels.length + 1 ∧
      ∀ l (hl : l < layers.length), layers[l].features = (c :: channels).getD l 0 ∧
        layers[l].act = (f :: actFun).getD l ((f :: actFun).getLast (by simp)) ∧
        layers[l].useBias = (if l = 0 then firstLayerBias else bias) ∧ layers[l].params = params l := by
  have hlast : (f :: actFun).getLast? = some ((f :: actFun).getLast (by simp)) := List.getLast?_eq_some_getLast (by simp)
  unfold netLayers
  rw [hlast]
  refine ⟨_, rfl, ?_, ?_⟩
  · simp only [List.length_mapIdx, List.length_zip, List.length_append, List.length_replicate, List.length_cons]
    omega
  · intro l hl
    simp only [List.length_mapIdx, List.length_zip, List.length_append, List.length_replicate, List.length_cons] at hl
    simp only [List.getElem_mapIdx, List.getElem_zip]
    refine ⟨?_, ?_, trivial, trivial⟩
    · rw [List.getD_eq_getElem _ _ (by simp only [List.length_cons]; omega)]
    · by_cases h : l < (f :: actFun).length
      · rw [List.getElem_append_left h, List.getD_eq_getElem _ _ h]
      · rw [List.getElem_append_right (by omega), List.getElem_replicate, List.getD_eq_default _ _ (by omega)]

example (params : ℕ → ConvParams 2 ℝ) (f g : ℝ → ℝ) : ∃ layers, netLayers [4, 5, 6] [f, g] true false params = .ok layers ∧
    layers.length = 3 := by
  obtain ⟨layers, h1, h2, -⟩ := c60_layers 2 4 [5, 6] f [g] true false params
  exact ⟨layers, h1, h2⟩

/-! ## Symmetrised CNNs -/

/-- C74: without spin flips, the symmetrised CNN is invariant under the requested symmetries, on chains and on square
lattices, for every inner network. Missing: spin flips, for which the claim is false (`c74_spinflip_violated`). -/
theorem c74_invariant_partial (L : ℕ) (hL : 0 < L) (translation reflection rotation : Bool) (tf rf qf sf : ℂ) :
    (∀ (net : (Fin L → ℤ) → ℂ) (h : Matrix (Fin L) (Fin L) ℤ),
      h ∈ Submonoid.closure (gens1D L translation reflection false) → ∀ s s', IsImage h s s' →
      cnnSym net (getOrbit1D L translation reflection false tf rf sf).orbit s' =
        cnnSym net (getOrbit1D L translation reflection false tf rf sf).orbit s) ∧
    (∀ (net : (Fin (L * L) → ℤ) → ℂ) (h : Matrix (Fin (L * L)) (Fin (L * L)) ℤ),
      h ∈ Submonoid.closure (gens2D L translation reflection rotation false) → ∀ s s', IsImage h s s' →
      cnnSym net (getOrbit2D L translation reflection rotation false tf rf qf sf).orbit s' =
        cnnSym net (getOrbit2D L translation reflection rotation false tf rf qf sf).orbit s) := by
  have key : ∀ {n : ℕ} {gens : Set (Matrix (Fin n) (Fin n) ℤ)} {os : List (Matrix (Fin n) (Fin n) ℤ)},
      IsGroupList gens os → (∀ M ∈ gens, ∃ f, M = mapMatrix f) → ∀ (net : (Fin n → ℤ) → ℂ), ∀ h ∈ Submonoid.closure gens,
      ∀ s s', IsImage h s s' → cnnSym net os s' = cnnSym net os s := by
    intro n gens os hg hm net h hh s s' hs
    have hmap : ∃ f, h = mapMatrix f := by
      clear hs
      induction hh using Submonoid.closure_induction_right with
      | one => exact ⟨id, mapMatrix_id.symm⟩
      | mul_right x _ y hy ih =>
        obtain ⟨f, rfl⟩ := ih
        obtain ⟨g, rfl⟩ := hm y hy
        exact ⟨g ∘ f, mapMatrix_mul f g⟩
    have hs' : s' = h.mulVec s := by
      obtain ⟨f, rfl⟩ := hmap
      funext i
      have h1 := hs i
      have h2 : ∑ j, mapMatrix f i j * (2 * s j - 1) = 2 * s (f i) - 1 :=
        mapMatrix_mulVec f (fun j => 2 * s j - 1) i
      rw [h2] at h1
      rw [mapMatrix_mulVec]
      omega
    unfold cnnSym
    congr 1
    rw [← ((group_perm hg ((hg.generated h).mpr hh)).map fun o => net (o.mulVec s)).sum_eq, List.map_map, hs']
    congr 1
    apply List.map_congr_left
    intro g _
    simp [Matrix.mulVec_mulVec]
  have : NeZero L := ⟨hL.ne'⟩
  constructor
  · intro net h hh s s' hs
    refine key (group1D L translation reflection false tf rf sf) ?_ net h hh s s' hs
    rintro M (⟨_, hM⟩ | ⟨_, hM⟩ | ⟨h, _⟩)
    · exact ⟨_, (isShift1D_iff M).mp hM⟩
    · exact ⟨_, (isReflection1D_iff M).mp hM⟩
    · cases h
  · intro net h hh s s' hs
    refine key (group2D L translation reflection rotation false tf rf qf sf) ?_ net h hh s s' hs
    rintro M (⟨_, hM | hM⟩ | ⟨_, hM | hM⟩ | ⟨_, hM⟩ | ⟨h, _⟩)
    · exact ⟨_, (isShiftRows_iff M).mp hM⟩
    · exact ⟨_, (isShiftCols_iff M).mp hM⟩
    · exact ⟨_, (isFlipRows_iff M).mp hM⟩
    · exact ⟨_, (isFlipCols_iff M).mp hM⟩
    · exact ⟨_, (isRotation_iff M).mp hM⟩
    · cases h

/-- Translations of a chain of three sites. -/
example (net : (Fin 3 → ℤ) → ℂ) (h : Matrix (Fin 3) (Fin 3) ℤ) (hh : h ∈ gens1D 3 true false false) (s s' : Fin 3 → ℤ)
    (hs : IsImage h s s') : cnnSym net (getOrbit1D 3 true false false 1 1 1).orbit s'
      = cnnSym net (getOrbit1D 3 true false false 1 1 1).orbit s :=
  (c74_invariant_partial 3 (by norm_num) true false false 1 1 1 1).1 net h (Submonoid.subset_closure hh) s s' hs

/-- The matrices act on the configuration `0, 1` and not on spins `±1`, so that a spin flip gives `0, -1`: a
configuration and its spin flip have different outputs. -/
theorem c74_spinflip_violated : ∃ p : ConvParams 1 ℂ,
    let net := fun s : Fin 1 → ℤ => cpxCnn (fun _ => 1) (fun _ => 1) true [⟨1, actPoly6, false, p⟩] (fun _ => 1) fun _ => s 0
    let orbit := (getOrbit1D 1 false false true 1 1 1).orbit
    (-1 ∈ Submonoid.closure (gens1D 1 false false true)) ∧ IsImage (-1) ![0] ![1] ∧
    cnnSym net orbit ![1] ≠ cnnSym net orbit ![0] := by
  refine ⟨⟨fun _ _ _ => 1, fun _ => 0⟩, ?_⟩
  dsimp only
  refine ⟨Submonoid.subset_closure (.inr (.inr ⟨rfl, (spinflip_iff _).mpr rfl⟩)), by unfold IsImage; decide, ?_⟩
  have hnet : ∀ x : ℤ, cpxCnn (d := 1) (fun _ => 1) (fun _ => 1) true
      [⟨1, actPoly6, false, ⟨fun _ _ _ => 1, fun _ => 0⟩⟩] (fun _ => 1) (fun _ => x) = actPoly6 (2 * (x : ℂ) - 1) := by
    intro x
    have ht : sameTotal 1 1 1 = 0 := by decide
    simp [cpxCnn, netSum, netSize, cpxCnnLayer, convSame, convValid, padZero, padWrap, netInput, NetArr.mapVal, ht,
      sum_box_one]
  have horb : (getOrbit1D 1 false false true 1 1 1).orbit.Perm [1, -1] := by
    have hne : (1 : Matrix (Fin 1) (Fin 1) ℤ) ≠ -1 := by decide
    rw [List.perm_ext_iff_of_nodup (group1D 1 false false true 1 1 1).nodup (by simp [hne])]
    intro M
    unfold getOrbit1D
    rw [unique_mem]
    have h1 : mapMatrix (index1D 1 ∘ index1D 1) = 1 := mapMatrix_id
    simp [withSpinflip, orbitsFromMaps1D, translations1D, reflections1D, mapMatrix_mul, h1, eq_comm]
  unfold cnnSym
  rw [(horb.map _).sum_eq, (horb.map _).sum_eq, horb.length_eq]
  simp only [List.map_cons, List.map_nil, List.sum_cons, List.sum_nil, hnet, Matrix.one_mulVec, Matrix.neg_mulVec,
    Pi.neg_apply, Matrix.cons_val_zero]
  norm_num [actPoly6]

/-! ## The hypotheses are met -/

/-- A translation of a configuration on a rectangle. -/
example (layers : List (Layer 2 ℝ)) :
    cnn ![2, 3] (fun _ => 1) true layers ![3, 4] (fun i => if i 0 = 1 ∧ i 1 = 0 then 1 else 0) =
      cnn ![2, 3] (fun _ => 1) true layers ![3, 4] fun i => if i 0 = 0 ∧ i 1 = 3 then 1 else 0 := by
  refine c60_cnn 2 ![2, 3] (fun _ => 1) ![3, 4] (by decide) (fun _ => rfl) (by decide) layers ![1, 1] _ _ ?_
  intro i hi
  have h0 := hi 0
  have h1 := hi 1
  simp only [Matrix.cons_val_zero, Matrix.cons_val_one] at h0 h1 ⊢
  congr 1
  apply propext
  omega

end JVMC
