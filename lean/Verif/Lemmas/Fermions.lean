import Mathlib.Tactic.LinearCombination
import Verif.Lemmas.BranchFree
import Verif.Props.BranchFree
import Verif.Props.Operator
import Verif.Spec.Fock
import Verif.Model.Fermions

/-! # The fermionic strings of the code and Fock space -/

namespace JVMC

open Matrix Spec

variable {N : ℕ}

/-- The local operator of the code for a factor. -/
noncomputable def letterOp : Letter N → LocalOp N 2
  | .create j => opCreation j
  | .annihilate j => opAnnihilation j
  | .number j => opNumber j

/-- `(-1)^(n (n - 1) / 2)` for `n` particles, the sign of reversing the order of `n` creation operators. -/
def reversalSign (s : Config N 2) : ℂ := (-1) ^ (particles s).choose 2

theorem reversalSign_sq (s : Config N 2) : reversalSign s * reversalSign s = 1 := by
  unfold reversalSign
  rw [← mul_pow]; simp

/-- The diagonal matrix of these signs. -/
def reversal : Matrix (Config N 2) (Config N 2) ℂ := Matrix.diagonal reversalSign

theorem reversal_sq : (reversal : Matrix (Config N 2) (Config N 2) ℂ) * reversal = 1 := by
  unfold reversal
  rw [diagonal_mul_diagonal]
  simp only [reversalSign_sq, diagonal_one]

theorem particles_split (j : Fin N) (s : Config N 2) :
    particles s = particlesBefore j s + (s j : ℕ) + ∑ i, if j < i then (s i : ℕ) else 0 := by
  unfold particles particlesBefore
  rw [show ((s j : ℕ)) = ∑ i, if i = j then (s i : ℕ) else 0 by simp]
  rw [← Finset.sum_add_distrib, ← Finset.sum_add_distrib]
  apply Finset.sum_congr rfl
  intro i _
  rcases lt_trichotomy i j with h | h | h
  · simp [h, h.ne, h.not_gt]
  · subst h; simp
  · simp [h, h.ne', h.not_gt]

theorem jwSign_pow (j : Fin N) (s : Config N 2) :
    jwSign j s = (-1) ^ ∑ i, if j < i then (s i : ℕ) else 0 := by
  unfold jwSign
  rw [← Finset.prod_pow_eq_pow_sum]
  apply Finset.prod_congr rfl
  intro i _
  split <;> simp

theorem particles_fill (j : Fin N) (s : Config N 2) (h : s j = 0) :
    particles (Function.update s j 1) = particles s + 1 := by
  unfold particles
  rw [← Finset.add_sum_erase _ _ (Finset.mem_univ j), ← Finset.add_sum_erase (Finset.univ) (fun i => (s i : ℕ))
    (Finset.mem_univ j)]
  simp only [Function.update_self, h]
  have : ∑ x ∈ Finset.univ.erase j, ((Function.update s j 1 x : Fin 2) : ℕ) = ∑ x ∈ Finset.univ.erase j, (s x : ℕ) := by
    apply Finset.sum_congr rfl
    intro i hi
    rw [Function.update_of_ne (Finset.ne_of_mem_erase hi)]
  rw [this]
  simp
  ring

/-- The sign of the code is the sign of the documented convention up to the reversal. -/
theorem sign_fill (j : Fin N) (s : Config N 2) (h : s j = 0) :
    jwSign j s = reversalSign (Function.update s j 1) * (-1) ^ particlesBefore j s * reversalSign s := by
  unfold reversalSign
  rw [particles_fill j s h, jwSign_pow, Nat.choose_succ_succ' (particles s) 1, Nat.choose_one_right, pow_add]
  have hsq : ((-1 : ℂ) ^ (particles s).choose 2) * (-1) ^ (particles s).choose 2 = 1 := by
    rw [← mul_pow]; simp
  have hb : ((-1 : ℂ) ^ particlesBefore j s) * (-1) ^ particlesBefore j s = 1 := by
    rw [← mul_pow]; simp
  have hp : (-1 : ℂ) ^ particles s = (-1) ^ particlesBefore j s * (-1) ^ ∑ i, if j < i then (s i : ℕ) else 0 := by
    rw [particles_split j s, h]
    simp [pow_add]
  rw [hp]
  set a := (-1 : ℂ) ^ particlesBefore j s
  set b := (-1 : ℂ) ^ ∑ i, if j < i then (s i : ℕ) else 0
  set c := (-1 : ℂ) ^ (particles s).choose 2
  linear_combination (-b) * hb - a * a * b * hsq

theorem opMatrix_entry (op : LocalOp N 2) (s s' : Config N 2) :
    opMatrix op s s' = opSign op s * op.matEls (s op.idx)
      * if s' = Function.update s op.idx (op.map (s op.idx)) then 1 else 0 := by
  have h := opMatrix_mulVec op (Pi.single s' 1) s
  rw [Matrix.mulVec_single_one] at h
  rw [show opMatrix op s s' = (opMatrix op).col s' s from rfl, h, Pi.single_apply]
  simp only [eq_comm]

theorem creator_entry (j : Fin N) (s' s : Config N 2) : creator j s' s
    = if s j = 0 ∧ s' = Function.update s j 1 then (-1) ^ particlesBefore j s else 0 := rfl

theorem code_creation (j : Fin N) : (opMatrix (opCreation j))ᵀ = reversal * creator j * reversal := by
  ext s' s
  rw [transpose_apply, opMatrix_entry]
  unfold reversal
  rw [mul_diagonal, diagonal_mul, creator_entry]
  have hs : s j = 0 ∨ s j = 1 := by omega
  rcases hs with hs | hs
  · by_cases h' : s' = Function.update s j 1
    · subst h'
      have := sign_fill j s hs
      simpa [opCreation, opSign, hs, arr2] using this
    · simp [opCreation, hs, arr2, h']
  · simp [opCreation, hs, arr2]

theorem creation_annihilation (j : Fin N) : opMatrix (opAnnihilation j) = (opMatrix (opCreation j))ᵀ := by
  ext s s'
  rw [transpose_apply, opMatrix_entry, opMatrix_entry]
  have hj : ∀ x y : Config N 2, (∀ i, i ≠ j → x i = y i) → jwSign j x = jwSign j y := by
    intro x y hxy
    rw [jwSign_pow, jwSign_pow]
    congr 1
    apply Finset.sum_congr rfl
    intro i _
    split
    · rename_i hi; rw [hxy i hi.ne']
    · rfl
  have hs : s j = 0 ∨ s j = 1 := by omega
  have hs' : s' j = 0 ∨ s' j = 1 := by omega
  by_cases ho : ∀ i, i ≠ j → s i = s' i
  · have e1 : s' = Function.update s j (s' j) := by
      funext i; by_cases hi : i = j
      · subst hi; simp
      · rw [Function.update_of_ne hi, ho i hi]
    have e2 : s = Function.update s' j (s j) := by
      funext i; by_cases hi : i = j
      · subst hi; simp
      · rw [Function.update_of_ne hi, ho i hi]
    have n1 : ∀ a, s' = Function.update s j a ↔ s' j = a := fun a =>
      ⟨fun h => by rw [h]; simp, fun h => by rw [← h]; exact e1⟩
    have n2 : ∀ a, s = Function.update s' j a ↔ s j = a := fun a =>
      ⟨fun h => by rw [h]; simp, fun h => by rw [← h]; exact e2⟩
    have hsign := hj s s' ho
    rcases hs with hs | hs <;> rcases hs' with hs' | hs' <;>
      simp [opAnnihilation, opCreation, opSign, arr2, n1, n2, hs, hs', hsign]
  · have n1 : ∀ a, s' ≠ Function.update s j a := by
      intro a h
      exact ho fun i hi => by rw [h, Function.update_of_ne hi]
    have n2 : ∀ a, s ≠ Function.update s' j a := by
      intro a h
      exact ho fun i hi => by rw [h, Function.update_of_ne hi]
    simp [opAnnihilation, opCreation, n1, n2]

theorem creator_transpose (j : Fin N) : (creator j)ᵀ = annihilator j := by
  ext s s'
  rw [transpose_apply, annihilator, conjTranspose_apply, creator_entry]
  split <;> simp

theorem reversal_transpose : (reversal : Matrix (Config N 2) (Config N 2) ℂ)ᵀ = reversal := by
  simp [reversal]

theorem code_annihilation (j : Fin N) :
    (opMatrix (opAnnihilation j))ᵀ = reversal * annihilator j * reversal := by
  rw [creation_annihilation, code_creation, transpose_mul, transpose_mul, reversal_transpose, creator_transpose,
    Matrix.mul_assoc]

theorem number_entry (j : Fin N) (s s' : Config N 2) :
    (creator j * annihilator j) s s' = if s = s' then ((s j : ℕ) : ℂ) else 0 := by
  rw [Matrix.mul_apply]
  have hs : s j = 0 ∨ s j = 1 := by omega
  have hterm : ∀ u : Config N 2, creator j s u * annihilator j u s'
      = if u = Function.update s j 0 then (if s = s' ∧ s j = 1 then (1 : ℂ) else 0) else 0 := by
    intro u
    rw [← creator_transpose, transpose_apply, creator_entry, creator_entry]
    by_cases hu : u j = 0 ∧ s = Function.update u j 1
    · have h0 : u = Function.update s j 0 := by
        rw [hu.2, Function.update_idem, ← hu.1, Function.update_eq_self]
      have h1 : s j = 1 := by rw [hu.2]; simp
      rw [if_pos hu, if_pos h0]
      by_cases hss : s = s'
      · rw [if_pos ⟨hu.1, hss ▸ hu.2⟩, if_pos ⟨hss, h1⟩, ← mul_pow]; simp
      · rw [if_neg (fun h => hss (hu.2.trans h.2.symm)), if_neg (fun h => hss h.1), mul_zero]
    · rw [if_neg hu, zero_mul]
      split
      · rename_i h0
        rw [if_neg]
        rintro ⟨-, h1⟩
        apply hu
        rw [h0, Function.update_self, Function.update_idem, ← h1, Function.update_eq_self]
        exact ⟨rfl, rfl⟩
      · rfl
  rw [Finset.sum_congr rfl fun u _ => hterm u, Finset.sum_ite_eq' Finset.univ]
  rcases hs with hs | hs <;> simp [hs]

theorem code_number (j : Fin N) :
    (opMatrix (opNumber j))ᵀ = reversal * (creator j * annihilator j) * reversal := by
  ext s' s
  rw [transpose_apply, opMatrix_entry]
  unfold reversal
  rw [mul_diagonal, diagonal_mul, number_entry]
  have hid : (opNumber j).map (s j) = s j := by
    have hs : s j = 0 ∨ s j = 1 := by omega
    rcases hs with hs | hs <;> simp [opNumber, hs, arr2]
  have hu : Function.update s (opNumber j).idx ((opNumber j).map (s (opNumber j).idx)) = s := by
    change Function.update s j ((opNumber j).map (s j)) = s
    rw [hid, Function.update_eq_self]
  rw [hu]
  have hm : (opNumber j).matEls (s j) = ((s j : ℕ) : ℂ) := by
    have hs : s j = 0 ∨ s j = 1 := by omega
    rcases hs with hs | hs <;> simp [opNumber, hs, arr2]
  by_cases h : s' = s
  · subst h
    rw [if_pos rfl, if_pos rfl]
    change opSign (opNumber j) s' * (opNumber j).matEls (s' j) * 1 = _
    rw [hm]
    have := reversalSign_sq s'
    simp only [opSign, opNumber, Bool.false_eq_true, if_false]
    linear_combination (-((s' j : ℕ) : ℂ)) * this
  · simp [h]

theorem code_letter (l : Letter N) : (opMatrix (letterOp l))ᵀ = reversal * l.matrix * reversal := by
  cases l with
  | create j => exact code_creation j
  | annihilate j => exact code_annihilation j
  | number j => exact code_number j

theorem conj_prod (l : List (Letter N)) :
    (l.map fun a => (opMatrix (letterOp a))ᵀ).prod = reversal * (l.map Letter.matrix).prod * reversal := by
  induction l with
  | nil => simp [reversal_sq]
  | cons a l ih =>
    rw [List.map_cons, List.prod_cons, ih, code_letter, List.map_cons, List.prod_cons]
    calc reversal * a.matrix * reversal * (reversal * (l.map Letter.matrix).prod * reversal)
        = reversal * a.matrix * (reversal * reversal) * (l.map Letter.matrix).prod * reversal := by
          simp only [Matrix.mul_assoc]
      _ = _ := by rw [reversal_sq, Matrix.mul_one]; simp only [Matrix.mul_assoc]

theorem conj_sum (terms : List (ℂ × List (Letter N))) :
    sumOfProducts ((terms.map Prod.fst).zip ((terms.map fun t => t.2.map letterOp).map fun ops =>
      ops.map fun o => (opMatrix o)ᵀ)) = reversal * fermionOperator terms * reversal := by
  induction terms with
  | nil => simp [sumOfProducts, fermionOperator]
  | cons t terms ih =>
    simp only [sumOfProducts, fermionOperator, List.map_cons, List.zip_cons_cons, List.sum_cons] at ih ⊢
    rw [ih, List.map_map, show ((fun o => (opMatrix o)ᵀ) ∘ letterOp : Letter N → _)
      = fun a => (opMatrix (letterOp a))ᵀ from rfl, conj_prod]
    rw [Matrix.mul_add, Matrix.add_mul, Matrix.mul_smul, Matrix.smul_mul]

theorem letter_fermionic_ok (terms : List (ℂ × List (Letter N))) :
    ∀ ops ∈ terms.map (fun t => t.2.map letterOp), ∀ o ∈ ops, o.diag = true → o.map = id := by
  have hid : arr2 (0 : Fin 2) 1 = id := by funext x; fin_cases x <;> rfl
  intro ops hops o ho hdiag
  obtain ⟨t, -, rfl⟩ := List.mem_map.mp hops
  obtain ⟨a, -, rfl⟩ := List.mem_map.mp ho
  cases a with
  | create j => simp [letterOp, opCreation] at hdiag
  | annihilate j => simp [letterOp, opAnnihilation] at hdiag
  | number j => exact hid

/-! ## Numbers of particles -/

/-- `∑_i w_i n_i`. -/
def chargeOf (w : Fin N → ℤ) (s : Config N 2) : ℤ := ∑ i, w i * ((s i : ℕ) : ℤ)

theorem chargeOf_one (s : Config N 2) : chargeOf (fun _ => 1) s = particles s := by
  simp [chargeOf, particles]

/-- What a factor adds to `∑_i w_i n_i`. -/
def letterCharge (w : Fin N → ℤ) : Letter N → ℤ
  | .create j => w j
  | .annihilate j => -w j
  | .number _ => 0

theorem letterCharge_one (l : Letter N) : letterCharge (fun _ => 1) l = l.charge := by
  cases l <;> rfl

theorem charge_fill (w : Fin N → ℤ) (j : Fin N) (s : Config N 2) (h : s j = 0) :
    chargeOf w (Function.update s j 1) = chargeOf w s + w j := by
  unfold chargeOf
  rw [← Finset.add_sum_erase _ _ (Finset.mem_univ j), ← Finset.add_sum_erase Finset.univ
    (fun i => w i * ((s i : ℕ) : ℤ)) (Finset.mem_univ j)]
  have : ∑ x ∈ Finset.univ.erase j, w x * (((Function.update s j 1 x : Fin 2) : ℕ) : ℤ)
      = ∑ x ∈ Finset.univ.erase j, w x * ((s x : ℕ) : ℤ) := by
    apply Finset.sum_congr rfl
    intro i hi
    rw [Function.update_of_ne (Finset.ne_of_mem_erase hi)]
  rw [this]
  simp [h]
  ring

theorem matrix_charge (w : Fin N → ℤ) (l : Letter N) (s' s : Config N 2) (h : l.matrix s' s ≠ 0) :
    chargeOf w s' = chargeOf w s + letterCharge w l := by
  cases l with
  | create j =>
    rw [Letter.matrix, creator_entry] at h
    have h' : s j = 0 ∧ s' = Function.update s j 1 := by
      by_contra hc; exact h (if_neg hc)
    rw [h'.2, charge_fill w j s h'.1]; simp [letterCharge]
  | annihilate j =>
    rw [Letter.matrix, ← creator_transpose, transpose_apply, creator_entry] at h
    have h' : s' j = 0 ∧ s = Function.update s' j 1 := by
      by_contra hc; exact h (if_neg hc)
    rw [h'.2, charge_fill w j s' h'.1]; simp [letterCharge]
  | number j =>
    rw [Letter.matrix, number_entry] at h
    have h' : s' = s := by
      by_contra hc; exact h (if_neg hc)
    rw [h']; simp [letterCharge]

theorem prod_charge (w : Fin N → ℤ) (l : List (Letter N)) (s' s : Config N 2)
    (h : (l.map Letter.matrix).prod s' s ≠ 0) :
    chargeOf w s' = chargeOf w s + (l.map (letterCharge w)).sum := by
  induction l generalizing s' with
  | nil =>
    have : s' = s := by
      by_contra hc
      exact h (by simp [hc])
    simp [this]
  | cons a l ih =>
    rw [List.map_cons, List.prod_cons, Matrix.mul_apply] at h
    obtain ⟨u, -, hu⟩ := Finset.exists_ne_zero_of_sum_ne_zero h
    have h1 := matrix_charge w a s' u (left_ne_zero_of_mul hu)
    have h2 := ih u (right_ne_zero_of_mul hu)
    rw [List.map_cons, List.sum_cons, h1, h2]; ring

theorem operator_cons (t : ℂ × List (Letter N)) (terms : List (ℂ × List (Letter N))) (s' s : Config N 2) :
    fermionOperator (t :: terms) s' s
      = t.1 * (t.2.map Letter.matrix).prod s' s + fermionOperator terms s' s := by
  simp [fermionOperator, Matrix.add_apply]

/-- A non-zero matrix element belongs to one of the products. -/
theorem operator_charge (w : Fin N → ℤ) (terms : List (ℂ × List (Letter N))) (s' s : Config N 2)
    (h : fermionOperator terms s' s ≠ 0) :
    ∃ t ∈ terms, chargeOf w s' = chargeOf w s + (t.2.map (letterCharge w)).sum := by
  induction terms with
  | nil => simp [fermionOperator] at h
  | cons t terms ih =>
    by_cases h1 : (t.2.map Letter.matrix).prod s' s = 0
    · have h2 : fermionOperator terms s' s ≠ 0 := by
        intro h2
        exact h (by rw [operator_cons, h1, h2]; simp)
      obtain ⟨t', ht', e⟩ := ih h2
      exact ⟨t', List.mem_cons_of_mem _ ht', e⟩
    · exact ⟨t, List.mem_cons_self, prod_charge w t.2 s' s h1⟩

/-! ## Real matrices -/

theorem matrix_real (l : Letter N) (s' s : Config N 2) : (starRingEnd ℂ) (l.matrix s' s) = l.matrix s' s := by
  cases l with
  | create j => rw [Letter.matrix, creator_entry]; split <;> simp
  | annihilate j => rw [Letter.matrix, ← creator_transpose, transpose_apply, creator_entry]; split <;> simp
  | number j => rw [Letter.matrix, number_entry]; split <;> simp

theorem prod_real (l : List (Letter N)) (s' s : Config N 2) :
    (starRingEnd ℂ) ((l.map Letter.matrix).prod s' s) = (l.map Letter.matrix).prod s' s := by
  induction l generalizing s' with
  | nil => simp only [List.map_nil, List.prod_nil, Matrix.one_apply]; split <;> simp
  | cons a l ih =>
    rw [List.map_cons, List.prod_cons, Matrix.mul_apply, map_sum]
    apply Finset.sum_congr rfl
    intro u _
    rw [map_mul, matrix_real, ih]

theorem operator_real (terms : List (ℂ × List (Letter N))) (hr : ∀ t ∈ terms, (starRingEnd ℂ) t.1 = t.1)
    (s' s : Config N 2) : (starRingEnd ℂ) (fermionOperator terms s' s) = fermionOperator terms s' s := by
  induction terms with
  | nil => simp [fermionOperator]
  | cons t terms ih =>
    rw [operator_cons, map_add, map_mul, prod_real, hr t List.mem_cons_self,
      ih fun t' h' => hr t' (List.mem_cons_of_mem _ h')]

/-! ## Which matrix elements are kept -/

theorem mergeDiag_mem (G : AddSubgroup ℂ) (diag : List ℕ) (l : List ℂ) (h : ∀ x ∈ l, x ∈ G) :
    ∀ x ∈ mergeDiag diag l, x ∈ G := by
  unfold mergeDiag
  split
  · rename_i d0 d1 ds
    have hget : ∀ k, l.getD k 0 ∈ G := by
      intro k
      by_cases hk : k < l.length
      · rw [List.getD_eq_getElem _ _ hk]; exact h _ (List.getElem_mem hk)
      · rw [List.getD_eq_default _ _ (by omega)]; exact G.zero_mem
    have hset : ∀ (m : List ℂ) (k : ℕ) (v : ℂ), (∀ x ∈ m, x ∈ G) → v ∈ G → ∀ x ∈ m.set k v, x ∈ G := by
      intro m k v hm hv x hx
      rcases List.mem_or_eq_of_mem_set hx with h' | h'
      · exact hm x h'
      · rw [h']; exact hv
    have h0 : ∀ x ∈ l.set d0 (((d0 :: d1 :: ds).map fun k => l.getD k 0).sum), x ∈ G := by
      apply hset _ _ _ h
      apply AddSubgroup.list_sum_mem
      intro x hx
      obtain ⟨k, -, rfl⟩ := List.mem_map.mp hx
      exact hget k
    generalize l.set d0 _ = m at h0
    generalize d1 :: ds = e
    induction e generalizing m with
    | nil => exact h0
    | cons k e ih => exact ih _ (hset m k 0 h0 G.zero_mem)
  · exact h

/-- Prefactors which are integer multiples of a number above the threshold. -/
theorem above_of_multiples [NeZero N] (terms : List (ℂ × List (Letter N))) (c : ℂ) (hc : (1e-6 : ℝ) < ‖c‖)
    (hm : ∀ t ∈ terms, ∃ k : ℤ, t.1 = k * c) (s : Config N 2) :
    AboveThreshold (branchFreeKernel (terms.map fun t => t.2.map letterOp) (terms.map Prod.fst) s) := by
  intro e he
  have hG : ∀ x : ℂ, x ∈ AddSubgroup.zmultiples c → x = 0 ∨ (1e-6 : ℝ) < ‖x‖ := by
    intro x hx
    obtain ⟨k, rfl⟩ := AddSubgroup.mem_zmultiples_iff.mp hx
    by_cases hk : k = 0
    · left; simp [hk]
    · right
      rw [zsmul_eq_mul, norm_mul]
      have : (1 : ℝ) ≤ ‖((k : ℤ) : ℂ)‖ := by
        rw [Complex.norm_intCast]
        exact_mod_cast Int.one_le_abs hk
      nlinarith [norm_nonneg c]
  apply hG
  unfold branchFreeKernel kernelMasked at he
  have he2 := (List.of_mem_zip (show (e.1, e.2) ∈ _ from he)).2
  refine mergeDiag_mem _ _ _ ?_ _ he2
  intro x hx
  obtain ⟨p, hp, rfl⟩ := List.mem_map.mp hx
  unfold rawSPrimes at hp
  obtain ⟨k, hk, rfl⟩ := List.mem_iff_getElem.mp hp
  rw [List.getElem_zipWith]
  have hfold : ∀ (l : List (LocalOp N 2)) (y : Config N 2 × ℂ), (∀ o ∈ l, ∀ a : Fin 2, ∃ m : ℤ, o.matEls a = (m : ℂ)) →
      y.2 ∈ AddSubgroup.zmultiples c → (l.foldl (applyFun triMask) y).2 ∈ AddSubgroup.zmultiples c := by
    intro l
    induction l with
    | nil => intro y _ hy; exact hy
    | cons o l ih =>
      intro y hl hy
      refine ih _ (fun o' h' => hl o' (List.mem_cons_of_mem _ h')) ?_
      obtain ⟨k, hk⟩ := AddSubgroup.mem_zmultiples_iff.mp hy
      obtain ⟨m, hm⟩ := hl o List.mem_cons_self (y.1 o.idx)
      refine AddSubgroup.mem_zmultiples_iff.mpr ⟨k * m * fermiFactor triMask o.fermionic o.idx y.1, ?_⟩
      simp only [applyFun]
      rw [← hk, hm]
      simp only [zsmul_eq_mul]
      push_cast
      ring
  have hk' : k < terms.length := by
    have := hk
    simp only [List.length_zipWith, List.length_map, min_self] at this
    exact this
  apply hfold
  · intro o ho a
    obtain ⟨j, -, rfl⟩ := List.mem_map.mp ho
    split
    · rename_i hj
      have hmem : ∀ o ∈ (terms.map fun t => t.2.map letterOp)[k]'(by simpa using hk'), ∀ a : Fin 2, ∃ m : ℤ,
          o.matEls a = (m : ℂ) := by
        intro o ho a
        rw [List.getElem_map] at ho
        obtain ⟨l, -, rfl⟩ := List.mem_map.mp ho
        cases l <;> fin_cases a
        · exact ⟨1, by simp [letterOp, opCreation, arr2]⟩
        · exact ⟨0, by simp [letterOp, opCreation, arr2]⟩
        · exact ⟨0, by simp [letterOp, opAnnihilation, arr2]⟩
        · exact ⟨1, by simp [letterOp, opAnnihilation, arr2]⟩
        · exact ⟨0, by simp [letterOp, opNumber, arr2]⟩
        · exact ⟨1, by simp [letterOp, opNumber, arr2]⟩
      exact hmem _ (List.getElem_mem _) a
    · exact ⟨1, by simp [opId]⟩
  · rw [List.getElem_map]
    obtain ⟨m, hm'⟩ := hm terms[k] (List.getElem_mem hk')
    exact AddSubgroup.mem_zmultiples_iff.mpr ⟨m, by rw [hm', zsmul_eq_mul]⟩

end JVMC
