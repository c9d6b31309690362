import Verif.Model.PovmOperator
import Verif.Spec.Operators
import Mathlib.Data.List.Basic
import Mathlib.Data.List.Nodup
import Mathlib.Data.List.Perm.Subperm
import Mathlib.Algebra.BigOperators.Group.List.Basic
import Mathlib.Data.List.GetD
import Mathlib.Tactic.Ring

/-!
# Lemmas about `POVMOperator.compile`
-/

namespace JVMC

open Spec

variable {N : ℕ} {R : Type} [Ring R]

/-! ## Embedding of local matrices -/

theorem kronEye_iterate (A : LocMat R) (r : ℕ) (s t : List (Fin 4)) (hs : r ≤ s.length)
    (hst : s.length = t.length) :
    (kronEye^[r] A) s t = A (s.take (s.length - r)) (t.take (t.length - r))
      * if s.drop (s.length - r) = t.drop (t.length - r) then 1 else 0 := by
  induction r generalizing s t with
  | zero => simp
  | succ r ih =>
    rw [Function.iterate_succ_apply']
    unfold kronEye
    change (kronEye^[r] A) s.dropLast t.dropLast * _ = _
    rw [ih _ _ (by simp; omega) (by simp [hst])]
    obtain ⟨s', x, rfl⟩ : ∃ s' x, s = s' ++ [x] :=
      ⟨s.dropLast, s.getLast (by rintro rfl; simp at hs), (List.dropLast_append_getLast _).symm⟩
    obtain ⟨t', y, rfl⟩ : ∃ t' y, t = t' ++ [y] :=
      ⟨t.dropLast, t.getLast (by rintro rfl; simp at hst), (List.dropLast_append_getLast _).symm⟩
    simp only [List.length_append, List.length_singleton, Nat.add_right_cancel_iff] at hst hs
    simp only [List.dropLast_concat, List.length_append, List.length_singleton,
      List.getLast?_append, List.getLast?_singleton]
    have e1 : s'.length + 1 - (r + 1) = s'.length - r := by omega
    have e2 : t'.length + 1 - (r + 1) = t'.length - r := by omega
    rw [e1, e2, List.take_append_of_le_length (by omega), List.take_append_of_le_length (by omega),
      List.drop_append_of_le_length (by omega), List.drop_append_of_le_length (by omega), mul_assoc]
    congr 1
    by_cases h1 : x = y
    · subst h1; simp
    · have : ¬ (s'.drop (s'.length - r) ++ [x] = t'.drop (t'.length - r) ++ [y]) := by
        intro h
        have := congrArg List.getLast? h
        simp at this
        exact h1 this
      simp [h1, this]

/-- A matrix padded with identities acts like the original matrix on the leading sites. -/
theorem onSites_kronEye (sites : List (Fin N)) (hnd : sites.Nodup) (A : LocMat R) (k : ℕ)
    (hk : k ≤ sites.length) :
    onSites sites (kronEye^[sites.length - k] A) = onSites (sites.take k) A := by
  ext s s'
  simp only [onSites, Matrix.of_apply]
  rw [kronEye_iterate _ _ _ _ (by simp) (by simp)]
  simp only [List.length_map]
  have e : sites.length - (sites.length - k) = k := by omega
  rw [e, ← List.map_take, ← List.map_take, ← List.map_drop, ← List.map_drop, mul_assoc]
  congr 1
  have hiff : (∀ j, j ∉ sites.take k → s j = s' j) ↔
      (sites.drop k).map s = (sites.drop k).map s' ∧ ∀ j, j ∉ sites → s j = s' j := by
    constructor
    · intro h
      refine ⟨?_, fun j hj => h j fun h' => hj (List.mem_of_mem_take h')⟩
      apply List.map_congr_left
      intro j hj
      apply h
      intro hj'
      rw [← List.take_append_drop k sites, List.nodup_append] at hnd
      exact hnd.2.2 j hj' j hj rfl
    · rintro ⟨h1, h2⟩ j hj
      by_cases hm : j ∈ sites
      · have : j ∈ sites.drop k := by
          rw [← List.take_append_drop k sites, List.mem_append] at hm
          exact hm.resolve_left hj
        exact (List.map_inj_left.mp h1) j this
      · exact h2 j hm
  by_cases h : (∀ j, j ∉ sites.take k → s j = s' j)
  · rw [if_pos h, if_pos (hiff.mp h).1, if_pos (hiff.mp h).2, mul_one]
  · have := mt hiff.mpr h
    rw [not_and_or] at this
    rcases this with h' | h' <;> simp only [if_neg h, if_neg h', mul_zero, zero_mul]

/-! ## The entries produced for one coupling -/

theorem mem_tuples (m : ℕ) (t : List (Fin 4)) : t ∈ tuples m ↔ t.length = m := by
  induction m generalizing t with
  | zero => simp [tuples]
  | succ m ih =>
    simp only [tuples, List.mem_flatMap, List.mem_finRange, List.mem_map, ih, true_and]
    constructor
    · rintro ⟨a, t', h, rfl⟩; simp [h]
    · intro h
      cases t with
      | nil => simp at h
      | cons a t => exact ⟨a, t, by simpa using h, rfl⟩

theorem nodup_tuples (m : ℕ) : (tuples m).Nodup := by
  induction m with
  | zero => simp [tuples]
  | succ m ih =>
    rw [tuples, List.nodup_flatMap]
    refine ⟨fun a _ => ih.map fun t t' h => (List.cons.inj h).2, ?_⟩
    refine List.Nodup.pairwise_of_forall_ne (List.nodup_finRange 4) ?_
    intro a _ b _ hab
    simp only [Function.onFun]
    rw [List.disjoint_left]
    intro t h1 h2
    obtain ⟨t1, _, rfl⟩ := List.mem_map.mp h1
    obtain ⟨t2, _, h⟩ := List.mem_map.mp h2
    exact hab (List.cons.inj h).1.symm

theorem setSites_cons (s : Config N 4) (i : Fin N) (sites : List (Fin N)) (a : Fin 4)
    (t : List (Fin 4)) :
    setSites s (i :: sites) (a :: t) = setSites (Function.update s i a) sites t := rfl

theorem setSites_not_mem (s : Config N 4) (sites : List (Fin N)) (t : List (Fin 4)) (j : Fin N)
    (hj : j ∉ sites) : setSites s sites t j = s j := by
  induction sites generalizing s t with
  | nil => rfl
  | cons i sites ih =>
    cases t with
    | nil => rfl
    | cons a t =>
      rw [List.mem_cons, not_or] at hj
      rw [setSites_cons, ih _ _ hj.2, Function.update_of_ne hj.1]

theorem map_setSites (s : Config N 4) (sites : List (Fin N)) (hnd : sites.Nodup)
    (t : List (Fin 4)) (ht : t.length = sites.length) : sites.map (setSites s sites t) = t := by
  induction sites generalizing s t with
  | nil => rw [List.length_nil, List.length_eq_zero_iff] at ht; rw [ht]; rfl
  | cons i sites ih =>
    cases t with
    | nil => simp at ht
    | cons a t =>
      rw [List.nodup_cons] at hnd
      rw [setSites_cons, List.map_cons, ih _ hnd.2 _ (by simpa using ht),
        setSites_not_mem _ _ _ _ hnd.1, Function.update_self]

theorem setSites_eq_iff (s s' : Config N 4) (sites : List (Fin N)) (hnd : sites.Nodup)
    (t : List (Fin 4)) (ht : t.length = sites.length) :
    setSites s sites t = s' ↔ t = sites.map s' ∧ ∀ j, j ∉ sites → s j = s' j := by
  constructor
  · rintro rfl
    exact ⟨(map_setSites s sites hnd t ht).symm, fun j hj => (setSites_not_mem s sites t j hj).symm⟩
  · rintro ⟨h1, h2⟩
    funext j
    by_cases hj : j ∈ sites
    · have h3 := map_setSites s sites hnd t ht
      rw [h1] at h3 ⊢
      exact List.map_inj_left.mp h3 j hj
    · rw [setSites_not_mem _ _ _ _ hj, h2 j hj]

theorem elementOf_append {C : Type} [DecidableEq C] (l l' : List (C × R)) (c : C) :
    elementOf (l ++ l') c = elementOf l c + elementOf l' c := by
  simp [elementOf]

theorem elementOf_coupling (s s' : Config N 4) (sites : List (Fin N)) (hnd : sites.Nodup)
    (A : LocMat R) :
    elementOf ((tuples sites.length).map fun t => (setSites s sites t, A (sites.map s) t)) s'
      = onSites sites A s s' := by
  have h1 : ((tuples sites.length).map fun t => (setSites s sites t, A (sites.map s) t)).filter
        (fun e => decide (e.1 = s'))
      = ((tuples sites.length).filter fun t =>
          decide (t = sites.map s' ∧ ∀ j, j ∉ sites → s j = s' j)).map
          fun t => (setSites s sites t, A (sites.map s) t) := by
    rw [List.filter_map]
    congr 1
    apply List.filter_congr
    intro t ht
    rw [mem_tuples] at ht
    simp only [Function.comp, setSites_eq_iff s s' sites hnd t ht]
  unfold elementOf
  rw [h1]
  simp only [onSites, Matrix.of_apply, List.map_map]
  by_cases h : ∀ j, j ∉ sites → s j = s' j
  · have hf : (fun t => decide (t = sites.map s' ∧ ∀ j, j ∉ sites → s j = s' j))
        = fun t => decide (t = sites.map s') := by
      funext t
      exact decide_eq_decide.mpr ⟨fun h => h.1, fun h' => ⟨h', h⟩⟩
    rw [if_pos h, mul_one, hf]
    have : (tuples sites.length).filter (fun t => decide (t = sites.map s')) = [sites.map s'] := by
      have hm : sites.map s' ∈ tuples sites.length := by rw [mem_tuples]; simp
      exact List.Perm.eq_singleton ((List.perm_ext_iff_of_nodup
        ((nodup_tuples _).filter _) (List.nodup_singleton _)).mpr (by
          intro t
          simp only [List.mem_filter, decide_eq_true_eq, List.mem_singleton]
          exact ⟨fun h => h.2, fun h => ⟨h ▸ hm, h⟩⟩))
    rw [this]
    simp [Function.comp]
  · rw [if_neg h]
    have : (tuples sites.length).filter (fun t =>
        decide (t = sites.map s' ∧ ∀ j, j ∉ sites → s j = s' j)) = [] := by
      rw [List.filter_eq_nil_iff]
      intro t _
      simp only [decide_eq_true_eq]
      exact fun h' => h h'.2
    rw [this]
    simp

theorem elementOf_povmSPrimes (m : ℕ) (cs : List (List (Fin N) × LocMat R))
    (h : ∀ e ∈ cs, e.1.length = m ∧ e.1.Nodup) (s s' : Config N 4) :
    elementOf (povmSPrimes (m, cs) s) s' = (cs.map fun e => onSites e.1 e.2 s s').sum := by
  unfold povmSPrimes
  induction cs with
  | nil => rfl
  | cons e cs ih =>
    have he := h e List.mem_cons_self
    rw [List.flatMap_cons, elementOf_append, ih fun e' h' => h e' (List.mem_cons_of_mem _ h'),
      List.map_cons, List.sum_cons]
    congr 1
    dsimp only
    rw [← he.1]
    exact elementOf_coupling s s' e.1 he.2 e.2

end JVMC
