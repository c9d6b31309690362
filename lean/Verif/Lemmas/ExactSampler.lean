import Mathlib.Algebra.BigOperators.Group.List.Basic
import Mathlib.Data.List.Nodup
import Mathlib.Data.Finset.Card
import Mathlib.Data.Nat.Bitwise
import Mathlib.Tactic.Linarith
import Mathlib.Tactic.Ring
import Verif.Model.ExactSampler
import Verif.Spec.Samples
import Verif.Lemmas.Mpi

/-! # Helper lemmas for the `ExactSampler` properties -/

namespace JVMC

/-! ## Digits -/

theorem scanDigits_length (l N x : ℕ) : (scanDigits l N x).length = N := by
  induction N generalizing x with
  | zero => rfl
  | succ N ih => simp [scanDigits, ih]

theorem sub_mod_div (l x : ℕ) (_hl : 0 < l) : (x - x % l) / l = x / l := by
  rw [← Nat.div_mul_self_eq_mod_sub_self, Nat.mul_div_cancel _ _hl]

theorem scanDigits_lt (l N x : ℕ) (hl : 0 < l) : ∀ d ∈ scanDigits l N x, d < l := by
  induction N generalizing x with
  | zero => simp [scanDigits]
  | succ N ih =>
    intro d hd
    simp only [scanDigits, List.mem_cons] at hd
    rcases hd with rfl | hd
    · exact Nat.mod_lt _ hl
    · exact ih _ d hd

theorem scanDigits_inj (l N x y : ℕ) (hl : 0 < l) (h : scanDigits l N x = scanDigits l N y) :
    x % l ^ N = y % l ^ N := by
  induction N generalizing x y with
  | zero => simp [Nat.mod_one]
  | succ N ih =>
    simp only [scanDigits, List.cons.injEq] at h
    rw [sub_mod_div l x hl, sub_mod_div l y hl] at h
    have := ih _ _ h.2
    rw [pow_succ', Nat.mod_mul, Nat.mod_mul, h.1, this]

theorem scanDigits_surj (l N : ℕ) (hl : 0 < l) (c : List ℕ) (hN : c.length = N)
    (hc : ∀ d ∈ c, d < l) : ∃ x < l ^ N, scanDigits l N x = c := by
  induction N generalizing c with
  | zero =>
    refine ⟨0, by simp, ?_⟩
    simp [scanDigits, List.length_eq_zero_iff.mp hN]
  | succ N ih =>
    match c, hN with
    | d :: c, hN =>
      obtain ⟨x, hx, hxc⟩ := ih c (by simpa using hN) (fun e he => hc e (by simp [he]))
      have hd : d < l := hc d (by simp)
      refine ⟨d + l * x, ?_, ?_⟩
      · rw [pow_succ']
        have : l * (x + 1) ≤ l * l ^ N := Nat.mul_le_mul_left l hx
        linarith [this, Nat.mul_succ l x]
      · simp only [scanDigits]
        rw [sub_mod_div l _ hl, Nat.add_mul_mod_self_left, Nat.mod_eq_of_lt hd,
          Nat.add_mul_div_left _ _ hl, Nat.div_eq_of_lt hd, Nat.zero_add, hxc]

theorem scanDigits_eq_map (l N x : ℕ) (hl : 0 < l) :
    scanDigits l N x = (List.range N).map fun j => x / l ^ j % l := by
  induction N generalizing x with
  | zero => rfl
  | succ N ih =>
    simp only [scanDigits]
    rw [sub_mod_div l x hl, ih, List.range_succ_eq_map]
    simp only [List.map_cons, pow_zero, Nat.div_one, List.map_map, List.cons.injEq, true_and]
    apply List.map_congr_left
    intro j _
    simp [Function.comp, pow_succ', Nat.div_div_eq_div_mul]

theorem foldl_set_bits (x N k : ℕ) (hk : k ≤ N) :
    (List.range k).foldl
      (fun state i => if (x >>> i) &&& 1 ≠ 0 then state.set i 1 else state)
      (List.replicate N 0)
    = (List.range N).map fun j => if j < k then x / 2 ^ j % 2 else 0 := by
  induction k with
  | zero =>
    apply List.ext_getElem <;> simp
  | succ k ih =>
    rw [List.range_succ, List.foldl_append, ih (by omega)]
    simp only [List.foldl_cons, List.foldl_nil]
    have hbit : (x >>> k) &&& 1 = x / 2 ^ k % 2 := by
      rw [Nat.and_one_is_mod, Nat.shiftRight_eq_div_pow]
    rw [hbit]
    have h2 : x / 2 ^ k % 2 < 2 := Nat.mod_lt _ (by omega)
    by_cases hb : x / 2 ^ k % 2 = 0
    · rw [if_neg (by simp [hb])]
      apply List.map_congr_left
      intro j _
      by_cases hj : j = k
      · subst hj; simp [hb]
      · by_cases hjk : j < k
        · rw [if_pos hjk, if_pos (by omega)]
        · rw [if_neg hjk, if_neg (by omega)]
    · rw [if_pos hb]
      apply List.ext_getElem
      · simp
      · intro j h1 _
        rw [List.getElem_set]
        simp only [List.getElem_map, List.getElem_range]
        by_cases hj : k = j
        · subst hj
          rw [if_pos rfl, if_pos (by omega)]; omega
        · rw [if_neg hj]
          by_cases hjk : j < k
          · rw [if_pos hjk, if_pos (by omega)]
          · rw [if_neg hjk, if_neg (by omega)]

theorem makeStateLdim2_eq (N x : ℕ) : makeStateLdim2 N x = scanDigits 2 N x := by
  unfold makeStateLdim2
  rw [foldl_set_bits x N N le_rfl, scanDigits_eq_map 2 N x (by omega)]
  apply List.map_congr_left
  intro j hj
  rw [if_pos (List.mem_range.mp hj)]

theorem makeState_length (l N x : ℕ) : (makeState l N x).length = N := by
  unfold makeState makeStateGeneral
  split_ifs
  · rw [makeStateLdim2_eq, scanDigits_length]
  · rw [List.length_reverse, scanDigits_length]

theorem makeState_lt (l N x : ℕ) (hl : 0 < l) : ∀ d ∈ makeState l N x, d < l := by
  unfold makeState makeStateGeneral
  split_ifs with h
  · subst h
    rw [makeStateLdim2_eq]
    exact scanDigits_lt _ _ _ hl
  · intro d hd
    exact scanDigits_lt _ _ _ hl d (List.mem_reverse.mp hd)

theorem makeState_inj (l N x y : ℕ) (hl : 0 < l) (h : makeState l N x = makeState l N y) :
    x % l ^ N = y % l ^ N := by
  unfold makeState makeStateGeneral at h
  split_ifs at h with h2
  · subst h2
    rw [makeStateLdim2_eq, makeStateLdim2_eq] at h
    exact scanDigits_inj _ _ _ _ hl h
  · exact scanDigits_inj _ _ _ _ hl (List.reverse_injective h)

theorem makeState_surj (l N : ℕ) (hl : 0 < l) (c : List ℕ) (hN : c.length = N)
    (hc : ∀ d ∈ c, d < l) : ∃ x < l ^ N, makeState l N x = c := by
  unfold makeState makeStateGeneral
  split_ifs with h2
  · subst h2
    obtain ⟨x, hx, h⟩ := scanDigits_surj 2 N hl c hN hc
    exact ⟨x, hx, by rw [makeStateLdim2_eq, h]⟩
  · obtain ⟨x, hx, h⟩ := scanDigits_surj l N hl c.reverse (by simpa using hN)
      (fun d hd => hc d (List.mem_reverse.mp hd))
    exact ⟨x, hx, by rw [h, List.reverse_reverse]⟩

/-! ## Layout over devices and ranks -/

theorem keptEntries_eq {A : Type*} (n : ℤ) (l : List A) : keptEntries n l = l.take n.toNat := by
  unfold keptEntries
  induction l using List.reverseRecOn with
  | nil => simp
  | append_singleton l a ih =>
    rw [List.length_append, List.length_singleton, List.range_succ,
      List.zip_append (by simp), List.filterMap_append, ih]
    simp only [List.zip_cons_cons, List.zip_nil_right, List.filterMap_cons, List.filterMap_nil]
    by_cases h : (l.length : ℤ) < n
    · rw [if_pos h, List.take_of_length_le (by omega),
        List.take_of_length_le (by simp; omega)]
    · rw [if_neg h, List.take_append_of_le_length (by omega)]
      simp

theorem take_range'_min (a k c : ℕ) : (List.range' a c).take k = List.range' a (min k c) := by
  apply List.ext_getElem <;> simp

/-- Number of consecutive integers one rank actually keeps. -/
def keptCount (n D : ℕ) : ℕ := max n ((D - 1) * ((n + D - 1) / D))

theorem rankBasis_eq (l N D n first : ℕ) (hD : 0 < D) :
    rankBasis l N D n first = (List.range' first (keptCount n D)).map (makeState l N) := by
  obtain ⟨D, rfl⟩ := Nat.exists_eq_succ_of_ne_zero hD.ne'
  unfold rankBasis numStatesPerDevice intReps keptCount
  simp only [Nat.succ_eq_add_one, Nat.add_sub_cancel]
  set c := (n + (D + 1) - 1) / (D + 1) with hc
  have hcn : n ≤ (D + 1) * c := by
    have h1 := Nat.div_add_mod (n + (D + 1) - 1) (D + 1)
    have h2 := Nat.mod_lt (n + (D + 1) - 1) (show 0 < D + 1 by omega)
    rw [← hc] at h1
    omega
  have hset : (List.replicate (D + 1) (c : ℤ)).set D
      ((c : ℤ) + ((n : ℤ) - ((D + 1 : ℕ) : ℤ) * (c : ℤ)))
      = List.replicate D (c : ℤ) ++ [(n : ℤ) - (D : ℤ) * (c : ℤ)] := by
    rw [List.replicate_succ', List.set_append_right _ _ (by simp)]
    simp only [List.length_replicate, Nat.sub_self, List.set_cons_zero]
    congr 2
    push_cast
    ring
  rw [hset, List.range_succ, List.map_append, List.map_append, List.zip_append (by simp),
    List.flatMap_append]
  have hfirst : ∀ (k : ℕ), ((List.replicate k (c : ℤ)).zip
      (((List.range k).map fun d => List.range' (first + d * c) c).map
        fun dev => dev.map (makeState l N))).flatMap (fun nd => keptEntries nd.1 nd.2)
      = (List.range' first (k * c)).map (makeState l N) := by
    intro k
    induction k with
    | zero => simp
    | succ k ih =>
      rw [List.replicate_succ', List.range_succ, List.map_append, List.map_append,
        List.zip_append (by simp), List.flatMap_append, ih]
      simp only [List.map_cons, List.map_nil, List.zip_cons_cons, List.zip_nil_right,
        List.flatMap_cons, List.flatMap_nil, List.append_nil, keptEntries_eq]
      rw [List.take_of_length_le (by simp), ← List.map_append, List.range'_append_1]
      congr 2
      ring
  rw [hfirst D]
  simp only [List.map_cons, List.map_nil, List.zip_cons_cons, List.zip_nil_right,
    List.flatMap_cons, List.flatMap_nil, List.append_nil, keptEntries_eq]
  rw [← List.map_take, take_range'_min, ← List.map_append, List.range'_append_1]
  congr 2
  have h3 : (D + 1) * c = D * c + c := by ring
  have h4 : ((n : ℤ) - (D : ℤ) * (c : ℤ)).toNat = n - D * c := by
    have : ((D : ℤ) * (c : ℤ)) = ((D * c : ℕ) : ℤ) := by push_cast; ring
    rw [this]
    omega
  have h5 : n - D * c ≤ c := by
    rw [Nat.sub_le_iff_le_add]
    linarith
  rw [h4, min_eq_left h5]
  rcases le_total n (D * c) with h | h
  · rw [max_eq_right h]; omega
  · rw [max_eq_left h]; omega

theorem exactBasis_eq (l N D s : ℕ) (hD : 0 < D) (hs : 0 < s) :
    exactBasis l N D s = .ok ((List.range s).flatMap fun r =>
      (List.range' (firstSampleId s r (l ^ N))
        (keptCount (samplesPerProcess s r (l ^ N)) D)).map (makeState l N)) := by
  unfold exactBasis
  rw [mapM_ok _ (fun r => (List.range' (firstSampleId s r (l ^ N))
        (keptCount (samplesPerProcess s r (l ^ N)) D)).map (makeState l N))]
  · rw [List.flatMap_def]; rfl
  · intro r _
    simp only [distributeSampling, hs.ne', if_false]
    show Except.ok _ = Except.ok _
    rw [rankBasis_eq _ _ _ _ _ hD]

/-- The device split loses nothing and keeps no padding. -/
def SplitFits (n D : ℕ) : Prop := (D - 1) * ((n + D - 1) / D) ≤ n

theorem keptCount_fits {n D : ℕ} (h : SplitFits n D) : keptCount n D = n := max_eq_left h

theorem range_flatMap_tiles (s n : ℕ) (hs : 0 < s) :
    (List.range s).flatMap (fun r => List.range' (firstSampleId s r n) (samplesPerProcess s r n))
      = List.range n := by
  have : (List.range s).flatMap
      (fun r => List.range' (firstSampleId s r n) (samplesPerProcess s r n))
      = (List.range s).flatMap (fun r => List.range'
        (∑ k ∈ Finset.range r, samplesPerProcess s k n) (samplesPerProcess s r n)) := by
    apply List.flatMap_congr
    intro r hr
    rw [sum_spp_prefix s n r (List.mem_range.mp hr).le hs]
  rw [this, flatMap_range', sum_spp s n hs]

end JVMC
