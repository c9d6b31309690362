import Verif.Model.Operator
import Verif.Lemmas.BranchFree
import Mathlib.Data.List.GetD
import Mathlib.Tactic.Ring

/-! # Helper lemmas for `Model/Operator` -/

namespace JVMC

open Spec

/-- Positions of the non-zero entries. -/
noncomputable def nzPos (p : ℕ) (m : List ℂ) : List ℕ :=
  match m with
  | [] => []
  | x :: xs => if isNonzero x then p :: nzPos (p + 1) xs else nzPos (p + 1) xs

theorem nzPos_bounds (p : ℕ) (m : List ℂ) : ∀ k ∈ nzPos p m, p ≤ k ∧ k < p + m.length := by
  induction m generalizing p with
  | nil => simp [nzPos]
  | cons x xs ih =>
    intro k hk
    unfold nzPos at hk
    simp only [List.length_cons]
    split at hk
    · rcases List.mem_cons.1 hk with rfl | hk
      · omega
      · have := ih (p + 1) k hk; omega
    · have := ih (p + 1) k hk; omega

theorem nzPos_sorted (p : ℕ) (m : List ℂ) : (nzPos p m).Pairwise (· ≤ ·) := by
  induction m generalizing p with
  | nil => simp [nzPos]
  | cons x xs ih =>
    unfold nzPos
    split
    · rw [List.pairwise_cons]
      refine ⟨?_, ih _⟩
      intro k hk
      have := nzPos_bounds _ _ k hk
      omega
    · exact ih _

theorem nzPos_length_le (p : ℕ) (m : List ℂ) : (nzPos p m).length ≤ m.length := by
  induction m generalizing p with
  | nil => simp [nzPos]
  | cons x xs ih =>
    unfold nzPos
    have := ih (p + 1)
    split <;> simp <;> omega

theorem findNonzeroScan_eq (last : ℕ) (c : ℕ × ℕ) (m : List ℂ) :
    (findNonzeroScan last c m).2 = (c.1 + (nzPos c.2 m).length, c.2 + m.length) ∧
    (findNonzeroScan last c m).1.Perm
      (nzPos c.2 m ++ List.replicate (m.length - (nzPos c.2 m).length) last) := by
  induction m generalizing c with
  | nil => simp [findNonzeroScan, nzPos]
  | cons x xs ih =>
    unfold findNonzeroScan nzPos
    dsimp only
    have hle := nzPos_length_le (c.2 + 1) xs
    cases hb : isNonzero x
    · obtain ⟨h1, h2⟩ := ih (c.1, c.2 + 1)
      simp only [Bool.false_eq_true, if_false]
      constructor
      · rw [h1]; simp only [List.length_cons]; congr 1; omega
      · refine (h2.cons last).trans ?_
        have e : (x :: xs).length - (nzPos (c.2 + 1) xs).length
            = (xs.length - (nzPos (c.2 + 1) xs).length) + 1 := by simp only [List.length_cons]; omega
        rw [e, List.replicate_succ]
        exact List.perm_middle.symm
    · obtain ⟨h1, h2⟩ := ih (c.1 + 1, c.2 + 1)
      simp only [if_true]
      constructor
      · rw [h1]; simp only [List.length_cons]; congr 1 <;> omega
      · have e : (x :: xs).length - (c.2 :: nzPos (c.2 + 1) xs).length
            = xs.length - (nzPos (c.2 + 1) xs).length := by simp only [List.length_cons]; omega
        rw [e, List.cons_append]
        exact h2.cons _

theorem findNonzero_eq (m : List ℂ) :
    findNonzero m = (nzPos 0 m ++ List.replicate (m.length - (nzPos 0 m).length) (m.length - 1),
      (nzPos 0 m).length) := by
  unfold findNonzero
  obtain ⟨h1, h2⟩ := findNonzeroScan_eq (m.length - 1) (0, 0) m
  dsimp only at h1 h2 ⊢
  rw [h1]
  congr 1
  · refine List.Perm.eq_of_pairwise' (r := (· ≤ ·)) (List.pairwise_insertionSort _ _) ?_
      ((List.perm_insertionSort _ _).trans h2)
    rw [List.pairwise_append]
    refine ⟨nzPos_sorted _ _, ?_, ?_⟩
    · rw [List.pairwise_replicate]; exact .inr (le_refl _)
    · intro a ha b hb
      rw [List.mem_replicate] at hb
      have := nzPos_bounds _ _ a ha
      omega
  · omega

theorem gatherIdx_append {A : Type} (l : List A) (i j : List ℕ) :
    gatherIdx l (i ++ j) = gatherIdx l i ++ gatherIdx l j := by
  simp [gatherIdx]

theorem gatherIdx_replicate {A : Type} (l : List A) (n k : ℕ) (h : k < l.length) :
    gatherIdx l (List.replicate n k) = List.replicate n (l[k]) := by
  induction n with
  | zero => rfl
  | succ n ih =>
    unfold gatherIdx at ih
    simp only [List.replicate_succ]
    unfold gatherIdx
    rw [List.filterMap_cons, List.getElem?_eq_getElem h]
    simp only [ih]

theorem gatherIdx_shift {A : Type} (pre l : List A) (m : List ℂ) :
    gatherIdx (pre ++ l) (nzPos pre.length m) = gatherIdx l (nzPos 0 m) := by
  have gen : ∀ (m : List ℂ) (p : ℕ), gatherIdx (pre ++ l) (nzPos (pre.length + p) m)
      = gatherIdx l (nzPos p m) := by
    intro m
    induction m with
    | nil => intro p; rfl
    | cons x xs ih =>
      intro p
      unfold nzPos
      have ih' := ih (p + 1)
      rw [← Nat.add_assoc] at ih'
      split
      · unfold gatherIdx at ih' ⊢
        rw [List.filterMap_cons, List.filterMap_cons, ih',
          List.getElem?_append_right (by omega), Nat.add_sub_cancel_left]
      · exact ih'
  exact gen m 0

/-- Gathering at the non-zero positions is filtering. -/
theorem gatherIdx_nzPos {A : Type} (row : List (A × ℂ)) (f : A × ℂ → B) :
    gatherIdx (row.map f) (nzPos 0 (row.map Prod.snd))
      = (row.filter fun e => isNonzero e.2).map f := by
  induction row with
  | nil => rfl
  | cons e row ih =>
    simp only [List.map_cons]
    unfold nzPos
    have hs := gatherIdx_shift [f e] (row.map f) (row.map Prod.snd)
    simp only [List.length_singleton, List.cons_append, List.nil_append] at hs
    rw [List.filter_cons]
    split
    · unfold gatherIdx at hs ih ⊢
      rw [List.filterMap_cons]
      simp only [Nat.zero_add, List.getElem?_cons_zero]
      rw [hs, ih]
      rfl
    · rw [Nat.zero_add, hs, ih]

theorem setZeroScan_eq (n k : ℕ) (l : List ℂ) :
    setZeroScan n k l = l.take (n - k) ++ List.replicate (l.length - (n - k)) 0 := by
  induction l generalizing k with
  | nil => simp [setZeroScan]
  | cons x xs ih =>
    unfold setZeroScan
    rw [ih]
    by_cases h : k < n
    · obtain ⟨j, hj⟩ : ∃ j, n - k = j + 1 := ⟨n - k - 1, by omega⟩
      have : n - (k + 1) = j := by omega
      rw [if_pos h, hj, this, List.take_succ_cons]
      simp
    · have h1 : n - k = 0 := by omega
      have h2 : n - (k + 1) = 0 := by omega
      rw [if_neg h, h1, h2]
      simp [List.replicate_succ]

theorem nzPos_length {A : Type} (row : List (A × ℂ)) :
    (nzPos 0 (row.map Prod.snd)).length = (row.filter fun e => isNonzero e.2).length := by
  have h := gatherIdx_nzPos row Prod.snd
  have h2 : ∀ idx : List ℕ, (∀ k ∈ idx, k < (row.map Prod.snd).length) →
      (gatherIdx (row.map Prod.snd) idx).length = idx.length := by
    intro idx
    induction idx with
    | nil => intro _; rfl
    | cons k idx ih =>
      intro hk
      unfold gatherIdx at ih ⊢
      rw [List.filterMap_cons, List.getElem?_eq_getElem (hk k List.mem_cons_self)]
      have := ih fun j hj => hk j (List.mem_cons_of_mem _ hj)
      simp only [List.length_cons, this]
  rw [← h2 _ fun k hk => by have := nzPos_bounds _ _ k hk; omega, h, List.length_map]

/-- One row after compression: the non-zero elements in their order, then padding with zero
elements. -/
theorem compressRow {S : Type} (row : List (S × ℂ)) (most : ℕ)
    (hm : (row.filter fun e => isNonzero e.2).length ≤ most) (hml : most ≤ row.length) :
    ∃ pad : List (S × ℂ), (∀ e ∈ pad, e.2 = 0 ∧ e.1 ∈ row.map Prod.fst) ∧
      pad.length = most - (row.filter fun e => isNonzero e.2).length ∧
      (let z := findNonzero (row.map Prod.snd)
       (gatherIdx (row.map Prod.fst) (z.1.take most)).zip
        (setZeroToZero (row.map Prod.snd) (z.1.take most) z.2))
      = (row.filter fun e => isNonzero e.2) ++ pad := by
  dsimp only
  rw [findNonzero_eq]
  dsimp only
  generalize hF : row.filter (fun e => isNonzero e.2) = F at *
  have hn : (nzPos 0 (row.map Prod.snd)).length = F.length := by rw [← hF, nzPos_length]
  rw [hn]
  have htake : (nzPos 0 (row.map Prod.snd) ++ List.replicate ((row.map Prod.snd).length - F.length)
      ((row.map Prod.snd).length - 1)).take most
      = nzPos 0 (row.map Prod.snd)
        ++ List.replicate (most - F.length) ((row.map Prod.snd).length - 1) := by
    rw [List.take_append, hn, List.take_of_length_le (by omega), List.take_replicate]
    congr 2
    simp only [List.length_map]
    omega
  rw [htake]
  unfold setZeroToZero
  rw [gatherIdx_append, gatherIdx_append, gatherIdx_nzPos, gatherIdx_nzPos, hF]
  by_cases h0 : most - F.length = 0
  · refine ⟨[], by simp, by simp [h0], ?_⟩
    rw [h0]
    have e : ∀ {B : Type} (l : List B), gatherIdx l [] = [] := fun _ => rfl
    simp only [List.replicate_zero, e, List.append_nil]
    rw [setZeroScan_eq, Nat.sub_zero, List.take_of_length_le (by simp), List.length_map,
      Nat.sub_self, List.replicate_zero, List.append_nil, List.zip_map']
    simp
  · have hpos : 0 < row.length := by omega
    have hlt : row.length - 1 < row.length := by omega
    rw [gatherIdx_replicate _ _ _ (by simpa using hlt), gatherIdx_replicate _ _ _ (by simpa using hlt)]
    refine ⟨List.replicate (most - F.length) ((row[row.length - 1]).1, 0), ?_, by simp, ?_⟩
    · intro e he
      rw [List.mem_replicate] at he
      rw [he.2]
      exact ⟨rfl, List.mem_map.2 ⟨row[row.length - 1], List.getElem_mem _, rfl⟩⟩
    · rw [setZeroScan_eq, Nat.sub_zero, List.take_append_of_le_length (by simp),
        List.take_of_length_le (by simp)]
      have hlen : (F.map Prod.snd ++ List.replicate (most - F.length)
          ((row.map Prod.snd)[(row.map Prod.snd).length - 1]'(by simpa using hlt))).length
          - F.length = most - F.length := by simp
      rw [hlen, List.zip_append (by simp), List.zip_map']
      congr 1
      · simp
      · apply List.ext_getElem
        · simp
        · intro k h1 h2
          simp

/-- Every row of `get_s_primes`. -/
theorem getSPrimes_rows {S : Type} (kernel : S → List (S × ℂ)) (samples : List S)
    (numOps : ℕ) (hops : ∀ s ∈ samples, (kernel s).length = numOps) :
    (getSPrimes kernel samples).length = samples.length ∧
    ∀ k (hk : k < samples.length) (hk' : k < (getSPrimes kernel samples).length),
      ∃ pad : List (S × ℂ), (∀ e ∈ pad, e.2 = 0 ∧ e.1 ∈ (kernel samples[k]).map Prod.fst) ∧
        (getSPrimes kernel samples)[k]
          = ((kernel samples[k]).filter fun e => isNonzero e.2) ++ pad := by
  refine ⟨by simp [getSPrimes], ?_⟩
  intro k hk hk'
  have hmem := List.getElem_mem hk
  have e : (getSPrimes kernel samples)[k]
      = (let row := kernel samples[k]
         let most := (((samples.map kernel).map fun r => findNonzero (r.map Prod.snd)).map
            Prod.snd).foldl max 0
         let z := findNonzero (row.map Prod.snd)
         (gatherIdx (row.map Prod.fst) (z.1.take most)).zip
          (setZeroToZero (row.map Prod.snd) (z.1.take most) z.2)) := by
    simp [getSPrimes]
  have hcount : ∀ s, (findNonzero ((kernel s).map Prod.snd)).2
      = ((kernel s).filter fun e => isNonzero e.2).length := by
    intro s
    rw [findNonzero_eq, nzPos_length]
  have hge := (foldl_max_ge ((((samples.map kernel).map fun r =>
      findNonzero (r.map Prod.snd)).map Prod.snd)) 0).2
  have hle : ∀ (l : List ℕ) (a B : ℕ), a ≤ B → (∀ x ∈ l, x ≤ B) → l.foldl max a ≤ B := by
    intro l
    induction l with
    | nil => intro a B h _; exact h
    | cons x l ih =>
      intro a B h hl
      exact ih _ _ (max_le h (hl x List.mem_cons_self))
        fun y hy => hl y (List.mem_cons_of_mem _ hy)
  obtain ⟨pad, h1, _, h3⟩ := compressRow (kernel samples[k])
    ((((samples.map kernel).map fun r => findNonzero (r.map Prod.snd)).map
      Prod.snd).foldl max 0)
    (by
      rw [← hcount]
      apply hge
      simp only [List.map_map, List.mem_map]
      exact ⟨_, hmem, rfl⟩)
    (by
      rw [hops _ hmem]
      apply hle _ _ _ (Nat.zero_le _)
      intro x hx
      simp only [List.map_map, List.mem_map, Function.comp_apply] at hx
      obtain ⟨s, hs, rfl⟩ := hx
      rw [hcount, ← hops s hs]
      exact List.length_filter_le _ _)
  exact ⟨pad, h1, by rw [e]; exact h3⟩

theorem oLocRow_append {S : Type} (a b : List (S × ℂ)) (l : ℂ) (f : S → ℂ) :
    oLocRow (a ++ b) l f = oLocRow a l f + oLocRow b l f := by
  simp [oLocRow]

theorem oLocRow_zero {S : Type} (a : List (S × ℂ)) (l : ℂ) (f : S → ℂ)
    (h : ∀ e ∈ a, e.2 = 0) : oLocRow a l f = 0 := by
  unfold oLocRow
  apply List.sum_eq_zero
  intro x hx
  obtain ⟨e, he, rfl⟩ := List.mem_map.1 hx
  rw [h e he, zero_mul]

/-- One sample: the sum over the elements that pass the threshold. -/
noncomputable def oLocSample {S : Type} (kernel : S → List (S × ℂ)) (f : S → ℂ) (s : S) (l : ℂ) :
    ℂ :=
  oLocRow ((kernel s).filter fun e => isNonzero e.2) l f

theorem oLocOn_eq {S : Type} (kernel : S → List (S × ℂ)) (f : S → ℂ) (samples : List S)
    (logPsiS : List ℂ) (numOps : ℕ) (hops : ∀ s ∈ samples, (kernel s).length = numOps) :
    oLocOn kernel f samples logPsiS = List.zipWith (oLocSample kernel f) samples logPsiS := by
  obtain ⟨hlen, hrow⟩ := getSPrimes_rows kernel samples numOps hops
  unfold oLocOn
  apply List.ext_getElem
  · simp [hlen]
  · intro k h1 h2
    simp only [List.getElem_zipWith]
    simp only [List.length_zipWith] at h1 h2
    obtain ⟨pad, hp, he⟩ := hrow k (by omega) (by omega)
    rw [he, oLocRow_append, oLocRow_zero pad _ _ fun e h => (hp e h).1, add_zero]
    rfl

/-! ## Batches -/

theorem oLocPlan_props (n b : ℕ) (hb : 0 < b) (hn : 0 < n) :
    0 < (oLocPlan n b).1 ∧ (oLocPlan n b).1 ≤ b ∧ (oLocPlan n b).1 ≤ n ∧
      (oLocPlan n b).2.1 = n / (oLocPlan n b).1 ∧ (oLocPlan n b).2.2 = n % (oLocPlan n b).1 := by
  unfold oLocPlan
  dsimp only
  split
  · rename_i hr
    dsimp only
    have hdm := Nat.div_add_mod n b
    have hmod := Nat.mod_lt n hb
    have hq : n / b + 1 ≤ n := by
      rcases Nat.lt_or_ge n b with h | h
      · rw [Nat.div_eq_of_lt h]; omega
      · have hb2 : 2 ≤ b := by
          by_contra hc
          have : b = 1 := by omega
          subst this
          simp [Nat.mod_one] at hr
        have : n / b ≤ n / 2 := Nat.div_le_div_left hb2 (by omega)
        omega
    have hpos : 0 < n / (n / b + 1) := Nat.div_pos hq (Nat.succ_pos _)
    refine ⟨hpos, ?_, Nat.div_le_self _ _, rfl, rfl⟩
    have : n / (n / b + 1) < b + 1 := by
      rw [Nat.div_lt_iff_lt_mul (Nat.succ_pos _)]
      have e : (b + 1) * (n / b + 1) = b * (n / b) + b + (n / b + 1) := by ring
      rw [e]
      generalize b * (n / b) = y at *
      generalize n / b = q at *
      omega
    omega
  · rename_i hr
    have h0 : n % b = 0 := by omega
    refine ⟨hb, le_refl _, Nat.le_of_dvd hn (Nat.dvd_of_mod_eq_zero h0), rfl, rfl⟩

theorem dynSlice_zipWith {A B C : Type} (f : A → B → C) (x : List A) (y : List B) (s k : ℕ) :
    List.zipWith f (dynSlice x s k) (dynSlice y s k) = dynSlice (List.zipWith f x y) s k := by
  simp [dynSlice, List.take_zipWith, List.drop_zipWith]

theorem dynSlice_length {A : Type} (x : List A) (s k : ℕ) (h : s + k ≤ x.length) :
    (dynSlice x s k).length = k := by
  simp [dynSlice]; omega

theorem dynUpdate_take {A : Type} (x : List A) (z : List A) (s k : ℕ) (h : s + k ≤ x.length)
    (hz : z.length = x.length) (hpre : z.take s = x.take s) :
    (dynUpdate z (dynSlice x s k) s).take (s + k) = x.take (s + k) ∧
      (dynUpdate z (dynSlice x s k) s).length = x.length := by
  have hl := dynSlice_length x s k h
  constructor
  · unfold dynUpdate
    rw [hpre, List.take_append_of_le_length (by simp [hl]; omega),
      List.take_of_length_le (by simp [hl])]
    unfold dynSlice
    rw [List.take_add]
  · unfold dynUpdate
    simp [hl, hz]
    omega

theorem oLocLoop_eq {S : Type} (kernel : S → List (S × ℂ)) (psi : Net S) (samples : List S)
    (logPsiS : List ℂ) (hlen : logPsiS.length = samples.length) (bs : ℕ)
    (numOps : ℕ) (hops : ∀ s, (kernel s).length = numOps)
    (nb : ℕ) (hle : nb * bs ≤ samples.length) (hnb : 0 < nb) :
    ∃ o, oLocLoop kernel psi samples logPsiS bs nb = some o ∧ o.length = samples.length ∧
      o.take (nb * bs)
        = (List.zipWith (oLocSample kernel psi.logPsiSP) samples logPsiS).take (nb * bs) := by
  generalize hx : List.zipWith (oLocSample kernel psi.logPsiSP) samples logPsiS = x
  have hxl : x.length = samples.length := by rw [← hx]; simp [hlen]
  have main : ∀ k, k * bs ≤ samples.length →
      ∃ o, ((oLocLoop kernel psi samples logPsiS bs k).getD (List.replicate samples.length 0)) = o
        ∧ o.length = samples.length ∧ o.take (k * bs) = x.take (k * bs) ∧
        (0 < k → oLocLoop kernel psi samples logPsiS bs k = some o) := by
    intro k
    induction k with
    | zero => intro _; exact ⟨_, rfl, by simp [oLocLoop], by simp, by omega⟩
    | succ k ih =>
      intro hk
      have hk' : k * bs + bs ≤ samples.length := by rw [Nat.succ_mul] at hk; exact hk
      obtain ⟨o, h1, h2, h3, _⟩ := ih (by omega)
      have e : oLocLoop kernel psi samples logPsiS bs (k + 1)
          = some (dynUpdate o (dynSlice x (k * bs) bs) (k * bs)) := by
        unfold oLocLoop at h1 ⊢
        rw [List.range_succ, List.foldl_append]
        simp only [List.foldl_cons, List.foldl_nil]
        rw [h1, oLocOn_eq _ _ _ _ numOps (fun s _ => hops s), dynSlice_zipWith, hx]
      obtain ⟨p1, p2⟩ := dynUpdate_take x o (k * bs) bs (by omega) (by omega) h3
      refine ⟨_, rfl, ?_, ?_, ?_⟩
      · rw [e]; simp only [Option.getD_some]; rw [p2, hxl]
      · rw [e]; simp only [Option.getD_some, Nat.succ_mul]; exact p1
      · intro _; rw [e]; rfl
  obtain ⟨o, h1, h2, h3, h4⟩ := main nb hle
  exact ⟨o, h4 hnb, h2, h3⟩

end JVMC
