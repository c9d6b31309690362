import Mathlib.Algebra.BigOperators.Group.Finset.Basic
import Mathlib.Data.Fintype.BigOperators
import Mathlib.Data.Fintype.Pi
import Mathlib.Data.List.GetD
import Verif.Lemmas.Stats
import Verif.Lemmas.Variational
import Verif.Model.Pipeline
import Verif.Props.ExactSampler
import Verif.Props.Operator

/-! # Helper lemmas: composition of sampler, operator and solver -/

namespace JVMC

open Spec Matrix

variable {S : Type}

/-! ## The exact sampler -/

theorem kept_device (lDim N : ℕ) (n : ℤ) (dev : List ℕ) :
    ((List.zipWith (fun (j x : ℕ) => (decide ((j : ℤ) < n), makeState lDim N x))
      (List.range dev.length) dev).filter (·.1)).map (·.2)
      = keptEntries n (dev.map (makeState lDim N)) := by
  unfold keptEntries
  rw [List.length_map]
  generalize List.range dev.length = js
  induction js generalizing dev with
  | nil => simp
  | cons j js ih =>
    cases dev with
    | nil => simp
    | cons x dev =>
      rw [List.zipWith_cons_cons, List.map_cons, List.zip_cons_cons, List.filterMap_cons]
      by_cases h : (j : ℤ) < n
      · simp only [h, decide_true, List.filter_cons_of_pos, List.map_cons, ih dev]
        simp
      · simp only [h, decide_false]
        rw [List.filter_cons_of_neg (by simp), ih dev]
        simp

theorem kept_rank (lDim N D mine first : ℕ) :
    ((exactEntries lDim N D mine first).flatten.filter (·.1)).map (·.2)
      = rankBasis lDim N D mine first := by
  unfold exactEntries rankBasis
  generalize numStatesPerDevice mine D = ns
  generalize intReps first mine D = devs
  induction ns generalizing devs with
  | nil => simp
  | cons n ns ih =>
    cases devs with
    | nil => simp
    | cons dev devs =>
      rw [List.zipWith_cons_cons, List.flatten_cons, List.filter_append, List.map_append, ih devs,
        kept_device, List.map_cons, List.zip_cons_cons, List.flatMap_cons]

theorem exactEntries_length (lDim N D mine first : ℕ) :
    (exactEntries lDim N D mine first).length = D := by
  unfold exactEntries numStatesPerDevice intReps
  simp

theorem exactEntries_nonempty (lDim N D mine first : ℕ) (hD : 0 < D) (hm : 0 < mine) :
    ∀ dev ∈ exactEntries lDim N D mine first, dev ≠ [] := by
  intro dev hdev
  unfold exactEntries intReps at hdev
  obtain ⟨i, hi, rfl⟩ := List.mem_iff_getElem.mp hdev
  rw [List.getElem_zipWith]
  intro h
  have := congrArg List.length h
  simp at this
  omega

theorem exactBasisWorld_eq (lDim N D s : ℕ) (hs : 0 < s) :
    ∃ W basis, exactBasisWorld lDim N D s = .ok W ∧ exactBasis lDim N D s = .ok basis ∧
      List.length W = s ∧ (∀ rk ∈ W, rk.length = D) ∧
      (0 < D → s ≤ lDim ^ N → ∀ rk ∈ W, ∀ dev ∈ rk, dev ≠ []) ∧
      ((allSamples W).filter (·.1)).map (·.2) = basis := by
  have h1 : exactBasisWorld lDim N D s = .ok ((List.range s).map fun r =>
      exactEntries lDim N D (samplesPerProcess s r (lDim ^ N)) (firstSampleId s r (lDim ^ N))) := by
    unfold exactBasisWorld
    apply mapM_ok
    intro r _
    simp only [distributeSampling, hs.ne', if_false]
    rfl
  have h2 : exactBasis lDim N D s = .ok ((List.range s).map fun r =>
      rankBasis lDim N D (samplesPerProcess s r (lDim ^ N)) (firstSampleId s r (lDim ^ N))).flatten := by
    unfold exactBasis
    rw [mapM_ok _ (fun r =>
      rankBasis lDim N D (samplesPerProcess s r (lDim ^ N)) (firstSampleId s r (lDim ^ N)))]
    · rfl
    · intro r _
      simp only [distributeSampling, hs.ne', if_false]
      rfl
  refine ⟨_, _, h1, h2, by simp, ?_, ?_, ?_⟩
  · intro rk hrk
    obtain ⟨r, _, rfl⟩ := List.mem_map.mp hrk
    exact exactEntries_length _ _ _ _ _
  · intro hD hbig rk hrk
    obtain ⟨r, _, rfl⟩ := List.mem_map.mp hrk
    refine exactEntries_nonempty _ _ _ _ _ hD ?_
    unfold samplesPerProcess
    have := Nat.div_pos hbig hs
    omega
  · unfold allSamples
    induction List.range s with
    | nil => simp
    | cons r rs ih =>
      rw [List.map_cons, List.flatten_cons, List.flatten_append, List.filter_append, List.map_append,
        ih, kept_rank, List.map_cons, List.flatten_cons]

/-- `ExactSampler.sample` returns the basis with Born weights. -/
theorem exactSampleWorld_eq (lDim N D s : ℕ) (hl : 2 ≤ lDim) (hD : 0 < D) (hs : 0 < s)
    (decode : List ℕ → S) (f ln : ℝ) (hf : f ≠ 0) (logPsi : S → ℂ) :
    ∃ (W : World (Bool × List ℕ)) (basis : List (List ℕ)) (ln' : ℝ),
      exactBasis lDim N D s = .ok basis ∧ List.length W = s ∧ (∀ rk ∈ W, rk.length = D) ∧
      (s ≤ lDim ^ N → ∀ rk ∈ W, ∀ dev ∈ rk, dev ≠ []) ∧
      ((allSamples W).filter (·.1)).map (·.2) = basis ∧
      exactSampleWorld lDim N D s decode f ln logPsi = .ok (ln', World.map (fun e =>
        (decode e.2, logPsi (decode e.2), if e.1 then
          bornProb f (basis.map fun c => logPsi (decode c)) (logPsi (decode e.2)) else 0)) W) := by
  obtain ⟨W, basis, hW, hb, hlen, hdev, hfull, hkept⟩ := exactBasisWorld_eq lDim N D s hs
  obtain ⟨basis', hb', hcov⟩ := c09_every_config_covered lDim N D s hl hD hs
  obtain rfl := Except.ok.inj (hb.symm.trans hb')
  have hkl : keptLogPsi (World.map (fun e => (e.1, logPsi (decode e.2))) W)
      = basis.map fun c => logPsi (decode c) := by
    unfold keptLogPsi
    rw [allSamples_wmap, ← hkept, List.filter_map, List.map_map, List.map_map]
    rfl
  have hne : basis ≠ [] := by
    intro h
    have := (hcov (List.replicate N 0)).2 ⟨by simp, by
      intro x hx
      rw [List.eq_of_mem_replicate hx]
      omega⟩
    rw [h] at this
    simp at this
  refine ⟨W, basis, f * Real.log (partitionSum f (basis.map fun c => logPsi (decode c))), hb, hlen,
    hdev, hfull hD, hkept, ?_⟩
  · unfold exactSampleWorld
    rw [hW]
    change Except.bind (exactSample f ln (World.map (fun e => (e.1, logPsi (decode e.2))) W)) _ = _
    rw [exactSample_eq f ln hf _ (World.map_ne _ _ (by
        intro r hr he
        have := hdev r hr
        rw [he] at this
        simp at this
        omega)) (by rw [hkl]; simpa using hne)]
    change Except.ok _ = Except.ok _
    rw [hkl]
    congr 2
    unfold bornWorld
    rw [hkl]
    unfold World.map
    simp only [List.map_map, List.zipWith_map_right, List.zipWith_self, Function.comp_def]

theorem weight_kept {A : Type} [DecidableEq A] (l : List (Bool × List ℕ)) (decode : List ℕ → A)
    (P : A → ℝ) (s : A) :
    weightOf (l.map fun e => ((if e.1 then P (decode e.2) else 0), decode e.2)) s
      = ((((l.filter (·.1)).map (·.2)).map decode).count s) * P s := by
  unfold weightOf
  induction l with
  | nil => simp
  | cons e l ih =>
    rw [List.map_cons, List.filter_cons]
    rcases e with ⟨b, c⟩
    by_cases hs : decode c = s
    · cases b
      · simp [hs]; simpa using ih
      · simp only [hs, decide_true, if_true, List.map_cons, List.sum_cons, ih]
        rw [List.filter_cons_of_pos (by rfl), List.map_cons, List.map_cons, hs, List.count_cons_self]
        push_cast; ring
    · simp only [hs, decide_false]
      rw [if_neg (by simp), ih]
      cases b
      · simp
      · rw [List.filter_cons_of_pos (by rfl), List.map_cons, List.map_cons,
          List.count_cons_of_ne (by simpa using hs)]

/-- `reshape(sampleShape)`: the local states in site order. -/
def toConfig (N d : ℕ) [NeZero d] (c : List ℕ) : Fin N → Fin d := fun i => Fin.ofNat d (c.getD i 0)

theorem toConfig_inj (N d : ℕ) [NeZero d] (c c' : List ℕ) (h : IsConfig d N c) (h' : IsConfig d N c')
    (he : toConfig N d c = toConfig N d c') : c = c' := by
  apply List.ext_getElem (h.1.trans h'.1.symm)
  intro i h1 h2
  have := congrArg Fin.val (congrFun he ⟨i, by rw [← h.1]; exact h1⟩)
  simp only [toConfig, Fin.ofNat, List.getD_eq_getElem _ _ h1, List.getD_eq_getElem _ _ h2] at this
  rwa [Nat.mod_eq_of_lt (h.2 _ (List.getElem_mem h1)),
    Nat.mod_eq_of_lt (h'.2 _ (List.getElem_mem h2))] at this

theorem toConfig_surj (N d : ℕ) [NeZero d] (s : Fin N → Fin d) :
    ∃ c, IsConfig d N c ∧ toConfig N d c = s := by
  refine ⟨List.ofFn fun i => (s i : ℕ), ⟨by simp, ?_⟩, ?_⟩
  · intro x hx
    obtain ⟨i, rfl⟩ := (List.mem_ofFn' _ _).1 hx
    exact (s i).2
  · funext i
    apply Fin.ext
    simp only [toConfig, Fin.ofNat]
    rw [List.getD_eq_getElem _ _ (by simp), List.getElem_ofFn]
    exact Nat.mod_eq_of_lt (s i).2

end JVMC
