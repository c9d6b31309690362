import Verif.Lemmas.Operator
import Verif.Lemmas.Ising
import Verif.Spec.CustomOp

/-!
# Lemmas: operators defined by a user
-/

namespace JVMC

open Spec

theorem mapM_ok_map {A B : Type} (f : A → Except PyErr B) (g : A → B) (l : List A) (h : ∀ a ∈ l, f a = .ok (g a)) :
    l.mapM f = .ok (l.map g) := by
  induction l with
  | nil => rfl
  | cons a l ih =>
    rw [List.mapM_cons, h a List.mem_cons_self, okBind, ih fun b hb => h b (List.mem_cons_of_mem _ hb), okBind]
    rfl

theorem reshapeRows_flatten (mats rows : List (List ℂ)) (h : List.Forall₂ (fun m r => m.length = r.length) mats rows) :
    reshapeRows mats rows.flatten = rows := by
  induction h with
  | nil => rfl
  | cons h0 _ ih =>
    unfold reshapeRows
    rw [h0, List.flatten_cons, List.take_left, List.drop_left, ih]

theorem drop_blocks (n : ℕ) (l : List (List ℤ)) (h : ∀ x ∈ l, x.length = n) (k : ℕ) (hk : k < l.length) :
    (l.flatten.drop (k * n)).take n = l[k] := by
  induction l generalizing k with
  | nil => simp at hk
  | cons a l ih =>
    have ha : a.length = n := h a List.mem_cons_self
    cases k with
    | zero => rw [zero_mul, List.drop_zero, List.flatten_cons, ← ha, List.take_left]; rfl
    | succ k =>
      rw [List.flatten_cons, Nat.succ_mul, Nat.add_comm (k * n) n, ← List.drop_drop]
      conv_lhs => rw [← ha, List.drop_left, ha]
      exact ih (fun x hx => h x (List.mem_cons_of_mem _ hx)) k (by simpa using hk)

/-- The rows of the leading axis of a list of configurations. -/
theorem item_blocks (m : ℕ) (shape : List ℕ) (l : List (List ℤ)) (hm : l.length = m) (h : ∀ x ∈ l, x.length = shape.prod)
    (k : ℕ) (hk : k < l.length) : (⟨m :: shape, l.flatten⟩ : IntArr).item k = .ok ⟨shape, l[k]⟩ := by
  unfold IntArr.item
  dsimp only
  rw [min_eq_left (by omega), drop_blocks _ _ h k hk]

theorem gatherIdx_eq_map {A : Type} (l : List A) (idx : List ℕ) (h : ∀ k ∈ idx, k < l.length) (d : A) :
    gatherIdx l idx = idx.map fun k => l.getD k d := by
  induction idx with
  | nil => rfl
  | cons k idx ih =>
    have hk := h k List.mem_cons_self
    have ih := ih fun j hj => h j (List.mem_cons_of_mem _ hj)
    unfold gatherIdx at ih ⊢
    rw [List.filterMap_cons, List.getElem?_eq_getElem hk]
    dsimp only
    rw [ih, List.map_cons, List.getD_eq_getElem _ _ hk]

theorem findNonzero_lt (m : List ℂ) (hm : m ≠ []) : ∀ k ∈ (findNonzero m).1, k < m.length := by
  rw [findNonzero_eq]
  intro k hk
  have hpos : 0 < m.length := List.length_pos_iff.2 hm
  rcases List.mem_append.1 hk with h | h
  · have := (nzPos_bounds 0 m k h).2
    omega
  · rw [(List.mem_replicate.1 h).2]
    omega

theorem setZeroScan_length (n k : ℕ) (l : List ℂ) : (setZeroScan n k l).length = l.length := by
  induction l generalizing k with
  | nil => rfl
  | cons x l ih => unfold setZeroScan; simp [ih]

/-- The shaped computation, in terms of the list computation. -/
theorem getSPrimesArr_eq (f : OpFun) (shape : List ℕ) (m : ℕ) (conn : List ℤ → List (List ℤ × ℂ)) (hm : 0 < m)
    (hf : ReturnsList f shape m conn) (samples : List (List ℤ)) (hs : ∀ s ∈ samples, s.length = shape.prod) :
    getSPrimesArr f (samples.map fun s => ⟨shape, s⟩) =
      .ok (((getSPrimes conn samples).map fun row => row.map fun e => (⟨shape, e.1⟩ : IntArr)).flatten,
        (getSPrimes conn samples).map fun row => row.map Prod.snd) := by
  have h1 : (samples.map fun s => (⟨shape, s⟩ : IntArr)).mapM f
      = .ok (samples.map fun s => ((⟨m :: shape, ((conn s).map Prod.fst).flatten⟩ : IntArr), (conn s).map Prod.snd)) := by
    rw [List.mapM_map]
    exact mapM_ok_map _ _ _ fun s h => (hf s (hs s h)).2.2
  unfold getSPrimesArr
  rw [h1, okBind]
  dsimp only
  have hnz : ((samples.map fun s => ((⟨m :: shape, ((conn s).map Prod.fst).flatten⟩ : IntArr), (conn s).map Prod.snd)).map
      fun o => findNonzero o.2) = samples.map fun s => findNonzero ((conn s).map Prod.snd) := by
    rw [List.map_map]
    rfl
  rw [hnz]
  have hrows : (samples.map conn).map (fun r => findNonzero (r.map Prod.snd))
      = samples.map fun s => findNonzero ((conn s).map Prod.snd) := by
    rw [List.map_map]
    rfl
  unfold getSPrimes
  dsimp only
  rw [hrows]
  generalize (List.map Prod.snd (samples.map fun s => findNonzero ((conn s).map Prod.snd))).foldl max 0 = most
  have hz : ((samples.map fun s => ((⟨m :: shape, ((conn s).map Prod.fst).flatten⟩ : IntArr), (conn s).map Prod.snd)).zip
      (samples.map fun s => findNonzero ((conn s).map Prod.snd)))
      = samples.map fun s => (((⟨m :: shape, ((conn s).map Prod.fst).flatten⟩ : IntArr), (conn s).map Prod.snd),
        findNonzero ((conn s).map Prod.snd)) := by
    rw [List.zip_map']
  have hlt : ∀ s ∈ samples, ∀ k ∈ (findNonzero ((conn s).map Prod.snd)).1.take most, k < (conn s).length := by
    intro s h k hk
    have := findNonzero_lt ((conn s).map Prod.snd) (by
      intro h0
      have := (hf s (hs s h)).1
      have h0' := congrArg List.length h0
      rw [List.length_map] at h0'
      simp only [List.length_nil] at h0'
      omega) k (List.mem_of_mem_take hk)
    rwa [List.length_map] at this
  have h2 : ((samples.map fun s => ((⟨m :: shape, ((conn s).map Prod.fst).flatten⟩ : IntArr), (conn s).map Prod.snd)).zip
      (samples.map fun s => findNonzero ((conn s).map Prod.snd))).mapM
        (fun oz => (oz.2.1.take most).mapM oz.1.1.item)
      = .ok (samples.map fun s => (gatherIdx ((conn s).map Prod.fst) ((findNonzero ((conn s).map Prod.snd)).1.take most)).map
          fun c => (⟨shape, c⟩ : IntArr)) := by
    rw [hz, List.mapM_map]
    apply mapM_ok_map
    intro s h
    dsimp only [Function.comp_apply]
    obtain ⟨e1, e2, -⟩ := hf s (hs s h)
    rw [gatherIdx_eq_map _ _ (by simpa using hlt s h) [], List.map_map]
    apply mapM_ok_map
    intro k hk
    have hk' := hlt s h k hk
    have hk2 : k < ((conn s).map Prod.fst).length := by simpa using hk'
    rw [item_blocks m shape _ (by simpa using e1) (by
      intro x hx
      obtain ⟨e, he, rfl⟩ := List.mem_map.1 hx
      exact e2 e he) k hk2]
    dsimp only [Function.comp_apply]
    rw [List.getD_eq_getElem _ _ hk2]
  rw [h2, okBind]
  have hzip : ∀ s ∈ samples,
      (gatherIdx ((conn s).map Prod.fst) ((findNonzero ((conn s).map Prod.snd)).1.take most)).length
        = (setZeroToZero ((conn s).map Prod.snd) ((findNonzero ((conn s).map Prod.snd)).1.take most)
            (findNonzero ((conn s).map Prod.snd)).2).length := by
    intro s h
    unfold setZeroToZero
    rw [setZeroScan_length, gatherIdx_eq_map _ _ (by simpa using hlt s h) [],
      gatherIdx_eq_map _ _ (by simpa using hlt s h) 0, List.length_map, List.length_map]
  congr 2
  · congr 1
    rw [List.zipWith_map, List.zipWith_self, List.map_map]
    apply List.map_congr_left
    intro s h
    dsimp only [Function.comp_apply]
    rw [show (fun e : List ℤ × ℂ => (⟨shape, e.1⟩ : IntArr)) = (fun c => (⟨shape, c⟩ : IntArr)) ∘ Prod.fst from rfl,
      ← List.map_map, List.map_fst_zip (hzip s h).le]
  · rw [List.zipWith_map, List.zipWith_map, List.zipWith_self, List.zipWith_self, List.map_map]
    apply List.map_congr_left
    intro s h
    dsimp only [Function.comp_apply]
    rw [List.map_snd_zip (hzip s h).ge]

end JVMC
