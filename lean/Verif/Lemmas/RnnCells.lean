import Mathlib.Data.List.GetD
import Verif.Model.RnnCells
import Verif.Spec.RnnCells
import Verif.Lemmas.Rnn

/-!
# Unrolling scans and stacks
-/

namespace JVMC

open Spec

variable {K : Type} [RCLike K] {D H : ℕ}

/-! ## Chains -/

/-- The states along a chain. -/
def unroll {S O : Type} (cell : S → (ℕ → ℝ) → S × O) (c : S) (x₀ : ℕ → ℝ) (x : ℕ → ℕ → ℝ) : ℕ → S × O
  | 0 => cell c x₀
  | t + 1 => cell (unroll cell c x₀ x t).1 (x t)

theorem unroll_shift {S O : Type} (cell : S → (ℕ → ℝ) → S × O) (c : S) (x₀ : ℕ → ℝ) (x : ℕ → ℕ → ℝ) (t : ℕ) :
    unroll cell (cell c x₀).1 (x 0) (fun t => x (t + 1)) t = unroll cell c x₀ x (t + 1) := by
  induction t with
  | zero => rfl
  | succ t ih =>
    rw [unroll, ih]
    rfl

theorem rnnScan_unroll {S O : Type} (net : Rnn1D S O) (xs : List (ℕ → ℝ)) : ∀ c x₀,
    rnnScan net (c, x₀) xs = (List.range xs.length).map fun t =>
      net.head.select (unroll net.cell c x₀ (fun t => xs.getD t 0) t).2 (xs.getD t 0) := by
  induction xs with
  | nil => intro c x₀; rfl
  | cons x xs ih =>
    intro c x₀
    rw [rnnScan]
    dsimp only
    rw [ih, List.length_cons, List.range_succ_eq_map, List.map_cons, List.map_map]
    congr 1
    apply List.map_congr_left
    intro t _
    simp only [Function.comp_apply, Nat.succ_eq_add_one, List.getD_cons_succ]
    have := unroll_shift net.cell c x₀ (fun t => (x :: xs).getD t 0) t
    simp only [List.getD_cons_zero, List.getD_cons_succ] at this
    rw [this]

/-! ## Stacks -/

/-- The signal between the layers. -/
def between (cells : ℕ → CellFn K H) (carry : ℕ → Rows K H) (r : Fin H → K) : ℕ → Fin H → K
  | 0 => r
  | l + 1 => (cells l (carry l) (between cells carry r l)).2

omit [RCLike K] in
theorem between_shift (cells : ℕ → CellFn K H) (carry : ℕ → Rows K H) (r : Fin H → K) (l : ℕ) :
    between (fun l => cells (l + 1)) (fun l => carry (l + 1)) (cells 0 (carry 0) r).2 l
      = between cells carry r (l + 1) := by
  induction l with
  | zero => rfl
  | succ l ih => rw [between, ih]; rfl

omit [RCLike K] in
theorem stackLoop_eq (l : List (Rows K H × CellFn K H)) : ∀ (j : ℕ) (nc : List (Rows K H)) (r : Fin H → K)
    (carry : ℕ → Rows K H) (cells : ℕ → CellFn K H) (_ : ∀ i (hi : i < l.length), l[i] = (carry i, cells i))
    (_ : nc.length = j + l.length),
    stackLoop j l nc r = (nc.take j ++ (List.range l.length).map fun i =>
      (cells i (carry i) (between cells carry r i)).1, between cells carry r l.length) := by
  induction l with
  | nil =>
    intro j nc r carry cells _ hlen
    rw [stackLoop]
    simp only [List.length_nil, Nat.add_zero] at hlen
    simp [← hlen, between]
  | cons e l ih =>
    intro j nc r carry cells he hlen
    obtain ⟨c, cell⟩ := e
    have h0 := he 0 (by simp)
    simp only [List.getElem_cons_zero, Prod.mk.injEq] at h0
    obtain ⟨rfl, rfl⟩ := h0
    rw [List.length_cons] at hlen
    rw [stackLoop, ih (j + 1) _ _ (fun i => carry (i + 1)) (fun i => cells (i + 1)) (by
      intro i hi
      have := he (i + 1) (by simpa using hi)
      simpa using this) (by rw [List.length_set]; omega)]
    rw [List.length_cons, between_shift, List.range_succ_eq_map, List.map_cons, List.map_map]
    congr 1
    rw [List.take_add_one, List.take_set_of_le (Nat.le_refl j), List.getElem?_set_self (by omega),
      Option.toList_some, List.append_assoc, List.singleton_append]
    congr 2
    apply List.map_congr_left
    intro i _
    rw [between_shift]
    rfl

omit [RCLike K] in
theorem stackLoop2_eq (l : List (Rows K H × Rows K H × CellFn2 K H)) : ∀ j nc r,
    stackLoop2 j l nc r = stackLoop j (l.map fun e => (e.2.1, fun cV s => e.2.2 e.1 cV s)) nc r := by
  induction l with
  | nil => intro j nc r; rfl
  | cons e l ih =>
    intro j nc r
    obtain ⟨cH, cV, cell⟩ := e
    rw [stackLoop2, List.map_cons, stackLoop]
    dsimp only
    rw [ih]

/-- The stack with `depth` cells and carries. -/
theorem stackCall_eq (act : K → K) (win : Fin D → Fin H → K) (depth : ℕ) (cells : ℕ → CellFn K H)
    (carry : List (Rows K H)) (hc : carry.length = depth) (x : ℕ → ℝ) :
    stackCall act win ((List.range depth).map cells) carry x
      = ((List.range depth).map fun l => (cells l (carry.getD l []) (between cells (fun l => carry.getD l [])
          (fun j => act (rowTimes (fun i => ((x i : ℝ) : K)) win j)) l)).1,
        between cells (fun l => carry.getD l []) (fun j => act (rowTimes (fun i => ((x i : ℝ) : K)) win j)) depth) := by
  unfold stackCall
  dsimp only
  rw [stackLoop_eq _ 0 _ _ (fun l => carry.getD l []) cells]
  · simp only [List.take_zero, List.nil_append, List.length_zip, hc, List.length_map, List.length_range, min_self]
    rfl
  · intro i hi
    have h1 : i < carry.length := by
      rw [List.length_zip] at hi
      exact lt_of_lt_of_le hi (min_le_left _ _)
    simp [List.getElem_zip, h1]
  · simp [hc]

theorem stackCall2_eq (act : K → K) (win : Fin (D + D) → Fin H → K) (depth : ℕ) (cells : ℕ → CellFn2 K H)
    (carryH carryV : List (Rows K H)) (hH : carryH.length = depth) (hV : carryV.length = depth)
    (xH xV : ℕ → ℝ) :
    stackCall2 act win ((List.range depth).map cells) carryH carryV xH xV
      = ((List.range depth).map fun l => (cells l (carryH.getD l []) (carryV.getD l [])
          (between (fun l cV s => cells l (carryH.getD l []) cV s) (fun l => carryV.getD l [])
            (fun j => act (rowTimes (Fin.append (fun i : Fin D => ((xH i : ℝ) : K)) fun i : Fin D => ((xV i : ℝ) : K)) win j)) l)).1,
        between (fun l cV s => cells l (carryH.getD l []) cV s) (fun l => carryV.getD l [])
          (fun j => act (rowTimes (Fin.append (fun i : Fin D => ((xH i : ℝ) : K)) fun i : Fin D => ((xV i : ℝ) : K)) win j)) depth) := by
  unfold stackCall2
  dsimp only
  rw [stackLoop2_eq, stackLoop_eq _ 0 _ _ (fun l => carryV.getD l []) (fun l cV s => cells l (carryH.getD l []) cV s)]
  · simp only [List.take_zero, List.nil_append, List.length_map, List.length_zip, hH, hV, List.length_range, min_self]
    rfl
  · intro i hi
    have h1 : i < depth := by
      simpa [List.length_zip, hH, hV] using hi
    simp [List.getElem_zip, hH ▸ h1, hV ▸ h1]
  · simp [hH, hV]

/-! ## Square lattices -/

/-- The states along one row. -/
def unrollH {S O : Type} (net : Rnn2D S O) (c : S) (v : ℕ → S) (xh xv : ℕ → ℕ → ℝ) : ℕ → S × O
  | 0 => net.cell c (v 0) (xh 0) (xv 0)
  | p + 1 => net.cell (unrollH net c v xh xv p).1 (v (p + 1)) (xh (p + 1)) (xv (p + 1))

theorem unrollH_shift {S O : Type} (net : Rnn2D S O) (c : S) (v : ℕ → S) (xh xv : ℕ → ℕ → ℝ) (p : ℕ) :
    unrollH net (net.cell c (v 0) (xh 0) (xv 0)).1 (fun p => v (p + 1)) (fun p => xh (p + 1))
      (fun p => xv (p + 1)) p = unrollH net c v xh xv (p + 1) := by
  induction p with
  | zero => rfl
  | succ p ih =>
    rw [unrollH, ih]
    rfl

theorem rnnScanH_unroll {S O : Type} (net : Rnn2D S O) (l : List (S × (ℕ → ℝ) × (ℕ → ℝ))) :
    ∀ c v xh xv, (∀ p (hp : p < l.length), l[p] = (v p, xh p, xv p)) →
      rnnScanH net c l = (List.range l.length).map (unrollH net c v xh xv) := by
  induction l with
  | nil => intros; rfl
  | cons e l ih =>
    intro c v xh xv h
    have h0 := h 0 (by simp)
    simp only [List.getElem_cons_zero] at h0
    subst h0
    rw [rnnScanH]
    dsimp only
    rw [ih _ (fun p => v (p + 1)) (fun p => xh (p + 1)) (fun p => xv (p + 1)) (by
      intro p hp
      have := h (p + 1) (by simpa using hp)
      simpa using this), List.length_cons, List.range_succ_eq_map, List.map_cons, List.map_map]
    congr 1
    apply List.map_congr_left
    intro p _
    exact unrollH_shift net c v xh xv p

/-- Position of column `c` along the direction `b`, and back. -/
def along (L : ℕ) (b : Bool) (c : ℕ) : ℕ := if b then c else L - 1 - c

theorem along_lt {L : ℕ} {b : Bool} {c : ℕ} (h : c < L) : along L b c < L := by
  unfold along; split <;> omega

theorem along_twice {L : ℕ} {b : Bool} {c : ℕ} (h : c < L) : along L b (along L b c) = c := by
  unfold along; split <;> omega

theorem reverseLine_getElem {A : Type} (l : List A) (b : Bool) (c : ℕ) (h : c < l.length) :
    (reverseLine l b)[c]'(by rw [reverseLine_length]; exact h)
      = l[along l.length b c]'(along_lt h) := by
  unfold reverseLine along
  cases b <;> simp

theorem reverseLine_range {A : Type} (L : ℕ) (b : Bool) (f : ℕ → A) :
    reverseLine ((List.range L).map f) b = (List.range L).map fun c => f (along L b c) := by
  apply List.ext_getElem
  · simp [reverseLine_length]
  · intro c h1 h2
    have h3 : c < ((List.range L).map f).length := by simpa using h2
    rw [reverseLine_getElem _ _ _ h3]
    simp

/-- One row: the states, indexed by columns. -/
theorem rnnRow_states {S O : Type} (net : Rnn2D S O) (L r : ℕ) (v : ℕ → S) (y x : ℕ → ℕ → ℝ) :
    ∃ G : ℕ → S × O, (∀ c < L, G c = net.cell (besides (net.zeroCarry 0) L r c fun c' => (G c').1) (v c)
        (besides 0 L r c x) (y c)) ∧
      rnnRow net ((List.range L).map v, (List.range L).map y) ((List.range L).map x) (lineDirection r)
        = (((List.range L).map fun c => (G c).1, (List.range L).map x),
            (List.range L).map fun c => net.head.select (G c).2 (x c)) := by
  set b := lineDirection r with hb
  set U := unrollH net (net.zeroCarry 0) (fun p => v (along L b p))
    (fun p => if p = 0 then 0 else x (along L b (p - 1))) (fun p => y (along L b p)) with hU
  have hscan : rnnScanH net (net.zeroCarry 0) ((reverseLine ((List.range L).map v) b).zip
      ((((fun _ => 0) :: reverseLine ((List.range L).map x) b).dropLast).zip
        (reverseLine ((List.range L).map y) b))) = (List.range L).map U := by
    rw [rnnScanH_unroll net _ _ (fun p => v (along L b p))
      (fun p => if p = 0 then 0 else x (along L b (p - 1))) (fun p => y (along L b p))]
    · congr 1
      simp [reverseLine_length]
    · intro p hp
      have hp' : p < L := by simpa [reverseLine_length] using hp
      simp only [reverseLine_range, List.getElem_zip, List.getElem_map, List.getElem_range,
        List.getElem_dropLast]
      congr 2
      cases p with
      | zero => rfl
      | succ p => simp
  refine ⟨fun c => U (along L b c), ?_, ?_⟩
  · intro c hc
    dsimp only
    have hpos : ∀ p, p < L → U p = net.cell (if p = 0 then net.zeroCarry 0 else (U (p - 1)).1)
        (v (along L b p)) (if p = 0 then 0 else x (along L b (p - 1))) (y (along L b p)) := by
      intro p _
      cases p with
      | zero => rfl
      | succ p => rfl
    rw [hpos _ (along_lt hc), along_twice hc]
    have hprev : (along L b c = 0 ∧ zigzagPrev L r c = none)
        ∨ (along L b c ≠ 0 ∧ zigzagPrev L r c = some (along L b (along L b c - 1))
          ∧ along L b (along L b (along L b c - 1)) = along L b c - 1) := by
      have h3 : along L b c - 1 < L := by have := along_lt (b := b) hc; omega
      rw [along_twice h3]
      unfold zigzagPrev
      by_cases hr : r % 2 = 0
      · have : b = true := by simp [hb, lineDirection, hr]
        simp only [along, this, if_true, hr]
        by_cases hc0 : c = 0
        · simp [hc0]
        · simp [hc0]
      · have : b = false := by simp [hb, lineDirection, hr]
        simp only [along, this, Bool.false_eq_true, if_false, hr]
        by_cases hcL : c + 1 = L
        · left
          simp [hcL]
        · right
          rw [if_neg hcL]
          refine ⟨by omega, ?_, trivial⟩
          congr 1
          omega
    unfold besides
    rcases hprev with ⟨h1, h2⟩ | ⟨h1, h2, h3⟩
    · rw [h1, h2]
      rfl
    · rw [if_neg h1, if_neg h1, h2]
      simp only [Option.elim_some]
      rw [h3]
  · unfold rnnRow
    dsimp only
    rw [hscan, List.map_map, List.map_map, reverseLine_range, reverseLine_range, List.zipWith_map]
    simp [List.zipWith_self]

/-- All rows: the states, indexed by row and column. -/
theorem rnnScanV_states {S O : Type} (net : Rnn2D S O) (L n : ℕ) : ∀ (r : ℕ) (v : ℕ → S) (y : ℕ → ℕ → ℝ)
    (x : ℕ → ℕ → ℕ → ℝ), ∃ G : ℕ → ℕ → S × O,
      (∀ i < n, ∀ c < L, G i c = net.cell (besides (net.zeroCarry 0) L (r + i) c fun c' => (G i c').1)
        (before (v c) (fun i' => (G i' c).1) i) (besides 0 L (r + i) c (x i))
        (before (y c) (fun i' => x i' c) i)) ∧
      (rnnScanV net r ((List.range L).map v, (List.range L).map y)
        ((List.range n).map fun i => (List.range L).map (x i))).sum
        = ∑ i ∈ Finset.range n, ∑ c ∈ Finset.range L, net.head.select (G i c).2 (x i c) := by
  induction n with
  | zero => intro r v y x; exact ⟨fun _ c => net.cell (v c) (v c) 0 0, by simp, by simp [rnnScanV]⟩
  | succ n ih =>
    intro r v y x
    obtain ⟨G0, h0, hrow⟩ := rnnRow_states net L r v y (x 0)
    obtain ⟨G, hG, hsum⟩ := ih (r + 1) (fun c => (G0 c).1) (x 0) (fun i => x (i + 1))
    refine ⟨fun i => if i = 0 then G0 else G (i - 1), ?_, ?_⟩
    · intro i hi c hc
      cases i with
      | zero => exact h0 c hc
      | succ i =>
        have := hG i (by omega) c hc
        simp only [Nat.add_eq_zero_iff, one_ne_zero, and_false, if_false, Nat.add_sub_cancel]
        rw [this, show r + 1 + i = r + (i + 1) by omega]
        congr 1
        · unfold before
          cases i with
          | zero => rfl
          | succ i => rfl
        · unfold before
          cases i with
          | zero => rfl
          | succ i => rfl
    · rw [List.range_succ_eq_map, List.map_cons, List.map_map, rnnScanV]
      dsimp only
      rw [hrow]
      dsimp only
      rw [List.sum_append, show ((fun i => (List.range L).map (x i)) ∘ Nat.succ)
        = fun i => (List.range L).map (x (i + 1)) from rfl, hsum, Finset.sum_range_succ', add_comm]
      congr 1

omit [RCLike K] in
theorem stackLoop_length (l : List (Rows K H × CellFn K H)) : ∀ j nc r,
    (stackLoop j l nc r).1.length = nc.length := by
  induction l with
  | nil => intro j nc r; rfl
  | cons e l ih =>
    intro j nc r
    obtain ⟨c, cell⟩ := e
    rw [stackLoop, ih, List.length_set]

theorem stackCall2_length (act : K → K) (win : Fin (D + D) → Fin H → K) (cells : List (CellFn2 K H))
    (carryH carryV : List (Rows K H)) (xH xV : ℕ → ℝ) :
    (stackCall2 act win cells carryH carryV xH xV).1.length = carryH.length := by
  unfold stackCall2
  dsimp only
  rw [stackLoop2_eq, stackLoop_length, List.length_map]

/-- The site before is earlier on the path. -/
theorem zigzag_cases {L r c : ℕ} (hc : c < L) : zigzagPrev L r c = none
    ∨ ∃ c' < L, zigzagPrev L r c = some c' ∧ visited L r c' < visited L r c := by
  unfold zigzagPrev visited
  by_cases hr : r % 2 = 0
  · by_cases h0 : c = 0
    · simp [hr, h0]
    · right
      refine ⟨c - 1, by omega, by simp [hr, h0], ?_⟩
      rw [if_pos hr, if_pos hr]
      omega
  · by_cases h0 : c + 1 = L
    · simp [hr, h0]
    · right
      refine ⟨c + 1, by omega, by simp [hr, h0], ?_⟩
      rw [if_neg hr, if_neg hr]
      omega

/-- The row above is earlier on the path. -/
theorem visited_above {L r c c' : ℕ} (hc : c < L) : visited L r c < visited L (r + 1) c' := by
  unfold visited
  have h1 : (if r % 2 = 0 then c else L - 1 - c) < L := by split <;> omega
  calc _ < r * L + L := by omega
    _ = (r + 1) * L := by ring
    _ ≤ _ := Nat.le_add_right _ _

theorem besides_congr {A : Type} {zero : A} {L r c : ℕ} (hc : c < L) {f g : ℕ → A}
    (h : ∀ c' < L, visited L r c' < visited L r c → f c' = g c') :
    besides zero L r c f = besides zero L r c g := by
  unfold besides
  rcases zigzag_cases hc with h0 | ⟨c', h1, h2, h3⟩
  · rw [h0]; rfl
  · rw [h2]; exact h c' h1 h3

theorem besides_map {A B : Type} (F : A → B) {zero : A} {L r c : ℕ} (f : ℕ → A) :
    F (besides zero L r c f) = besides (F zero) L r c fun c' => F (f c') := by
  unfold besides
  cases zigzagPrev L r c <;> rfl

theorem before_map {A B : Type} (F : A → B) {zero : A} (f : ℕ → A) (t : ℕ) :
    F (before zero f t) = before (F zero) (fun t => F (f t)) t := by
  unfold before
  split <;> rfl

end JVMC
