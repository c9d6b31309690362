import Mathlib.Tactic.Ring
import Mathlib.Tactic.FieldSimp
import Mathlib.Tactic.LinearCombination
import Verif.Model.Stats
import Verif.Spec.Samples
import Verif.Lemmas.Mpi

/-!
# Lemmas on `SampledObs`
-/

namespace JVMC

open Spec

variable {ι κ μ : Type}

theorem World.map_map {A B C : Type} (f : A → B) (g : B → C) (w : World A) :
    World.map g (World.map f w) = World.map (fun a => g (f a)) w := by
  unfold World.map
  simp [List.map_map, Function.comp_def]

theorem World.map_congr {A B : Type} (f g : A → B) (w : World A)
    (h : ∀ a ∈ allSamples w, f a = g a) : World.map f w = World.map g w := by
  unfold World.map
  apply List.map_congr_left
  intro rk hrk
  apply List.map_congr_left
  intro dev hdev
  apply List.map_congr_left
  intro a ha
  exact h a (List.mem_flatten.mpr ⟨dev, List.mem_flatten.mpr ⟨rk, hrk, hdev⟩, ha⟩)

theorem World.map_id' {A : Type} (f : A → A) (w : World A)
    (h : ∀ a ∈ allSamples w, f a = a) : World.map f w = w := by
  rw [World.map_congr f (fun a => a) w h]
  unfold World.map
  simp

theorem allSamples_wmap {A B : Type} (f : A → B) (w : World A) :
    allSamples (World.map f w) = (allSamples w).map f := allSamples_map f w

theorem World.map_ne {A B : Type} (f : A → B) (w : World A) (h : ∀ r ∈ w, r ≠ []) :
    ∀ r ∈ World.map f w, r ≠ [] := by
  intro r hr
  obtain ⟨d, hd, rfl⟩ := List.mem_map.mp hr
  have := h d hd
  simpa using this

theorem zipWith_map_self {A B C : Type} (f : A → B → C) (g : A → B) (l : List A) :
    List.zipWith f l (l.map g) = l.map fun a => f a (g a) := by
  induction l with
  | nil => rfl
  | cons a l ih => simp [ih]

theorem World.length_map {A B : Type} (f : A → B) (w : World A) :
    List.length (World.map f w) = List.length w := by
  unfold World.map; simp

/-- One value on every rank. -/
theorem World.const_map {A B C : Type} (f : A → B) (w : World A) (c : C) :
    List.map (fun _ => c) (World.map f w) = List.map (fun _ => c) w := by
  unfold World.map; simp [List.map_map, Function.comp_def]

theorem create_eq (world : World (ℝ × (ι → ℂ))) (h : ∀ r ∈ world, r ≠ []) :
    SObs.create world = .ok ⟨World.map (fun s => (s.1, fun i =>
        (Real.sqrt s.1 : ℂ) * (s.2 i - wMean (allSamples world) i))) world,
      List.map (fun _ => wMean (allSamples world)) world⟩ := by
  unfold SObs.create
  rw [globalMean_eq world h]
  show Except.ok _ = Except.ok _
  congr 2
  unfold dataPrep
  rw [zipWith_map_self]
  rfl

theorem zipE_map {A B C : Type} (f : A → B) (g : A → C) (l : List A) :
    zipE (l.map f) (l.map g) = .ok (l.map fun a => (f a, g a)) := by
  unfold zipE
  rw [if_pos (by simp), List.zip_map']

theorem zipWorld_map {A B C : Type} (f : A → B) (g : A → C) (w : World A) :
    zipWorld (World.map f w) (World.map g w) = .ok (World.map (fun a => (f a, g a)) w) := by
  unfold zipWorld World.map
  rw [zipE_map]
  change List.mapM _ (List.map _ w) = _
  rw [List.mapM_map, mapM_ok _ (fun rk => rk.map fun dev => dev.map fun a => (f a, g a))]
  intro rk _
  dsimp only [Function.comp]
  rw [zipE_map]
  change List.mapM _ (List.map _ rk) = _
  rw [List.mapM_map, mapM_ok _ (fun dev => dev.map fun a => (f a, g a))]
  intro dev _
  dsimp only [Function.comp]
  rw [zipE_map]

/-- A reduction of per-device sums. -/
theorem globalSum_dev {A M : Type} [AddCommMonoid M] (w : World A) (g : A → M)
    (h : ∀ r ∈ w, r ≠ []) :
    globalSum (List.map (fun rk => List.map (fun dev => [(List.map g dev).sum]) rk) w)
      = .ok (List.map (fun _ => ((allSamples w).map g).sum) w) := by
  rw [globalSum_eq]
  · rw [List.map_map]
    congr 1
    apply List.map_congr_left
    intro _ _
    dsimp only [Function.comp]
    unfold allSamples
    rw [List.flatten_flatten, List.flatten_flatten, List.map_map, List.sum_flatten, List.map_map,
      List.map_flatten, List.sum_flatten, List.map_map, List.map_map]
    congr 1
    apply List.map_congr_left
    intro rk _
    dsimp only [Function.comp]
    rw [List.map_flatten, List.sum_flatten, List.sum_flatten, List.map_map, List.map_map]
    congr 1
    apply List.map_congr_left
    intro dev _
    simp
  · intro r hr
    obtain ⟨d, hd, rfl⟩ := List.mem_map.mp hr
    have := h d hd
    simpa using this

theorem globalSum_wmap {A M : Type} [AddCommMonoid M] (w : World A) (g : A → M)
    (h : ∀ r ∈ w, r ≠ []) :
    globalSum (World.map g w) = .ok (List.map (fun _ => ((allSamples w).map g).sum) w) := by
  rw [globalSum_eq _ (World.map_ne g w h), allSamples_wmap, World.const_map]

theorem sqrt_mul_self_cast (p : ℝ) (hp : 0 ≤ p) : (Real.sqrt p : ℂ) * (Real.sqrt p : ℂ) = (p : ℂ) := by
  rw [← Complex.ofReal_mul, Real.mul_self_sqrt hp]

theorem wMean_apply (l : List (ℝ × (ι → ℂ))) (i : ι) :
    wMean l i = (l.map fun s => (s.1 : ℂ) * s.2 i).sum := by
  unfold wMean
  rw [list_sum_apply, List.map_map]
  congr 1

end JVMC
