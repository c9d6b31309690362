import Verif.Lemmas.Ising
import Verif.Props.SymMeasure

/-!
# C138 — The Hamiltonians of the example scripts
-/

namespace JVMC

open Spec Matrix

variable {Arg : Type} {L : ℕ} [NeZero L]

/-- The number of operator strings of the Hamiltonian. -/
def isingStrings (L : ℕ) (h : Option ℂ) : ℕ := (if h.isSome then 3 else 2) * L

/-- No matrix element that is not zero is as small as the threshold below which the code drops it. -/
def Resolved (L : ℕ) [NeZero L] (g h : ℂ) : Prop :=
  (g = 0 ∨ (1e-6 : ℝ) < ‖g‖) ∧ ∀ s : Config L 2, classicalEnergy h s = 0 ∨ (1e-6 : ℝ) < ‖classicalEnergy h s‖

omit [NeZero L] in
theorem length_flatMap_const {A : Type} (f : ℕ → List A) (c : ℕ) (hf : ∀ l, (f l).length = c) (n : ℕ) :
    ((List.range n).flatMap f).length = c * n := by
  induction n with
  | zero => rfl
  | succ n ih =>
    rw [List.range_succ, List.flatMap_append, List.length_append, ih]
    simp [hf, Nat.mul_succ]

theorem isingTerms_length (g : ℂ) (h : Option ℂ) :
    ((List.range L).flatMap (isingTerms (L := L) g h)).length = isingStrings L h := by
  unfold isingStrings
  refine length_flatMap_const _ _ (fun l => ?_) L
  cases h <;> rfl

omit [NeZero L] in
theorem opSz_map (i : Fin L) : (opSz i).map = id := by
  funext x
  fin_cases x <;> rfl

theorem isingTerms_diag (g : ℂ) (h : Option ℂ) :
    ∀ ops ∈ ((List.range L).flatMap (isingTerms (L := L) g h)).map Prod.snd, ∀ o ∈ ops, o.diag = true → o.map = id := by
  intro ops hops o ho hd
  obtain ⟨t, ht, rfl⟩ := List.mem_map.1 hops
  obtain ⟨l, _, ht⟩ := List.mem_flatMap.1 ht
  unfold isingTerms at ht
  rw [List.mem_append, List.mem_cons, List.mem_singleton, List.mem_map] at ht
  rcases ht with (rfl | rfl) | ⟨x, _, rfl⟩
  · dsimp only at ho
    rw [List.mem_cons, List.mem_singleton] at ho
    rcases ho with rfl | rfl <;> exact opSz_map _
  · dsimp only at ho
    rw [List.mem_singleton] at ho
    subst ho
    simp [opSx] at hd
  · dsimp only at ho
    rw [List.mem_singleton] at ho
    subst ho
    exact opSz_map _

/-- The loop of the examples ends without an error, and on one rank, or with fewer than 50 operator strings, the matrix
elements the operator then yields are those of the Ising chain `∑_l (-Z_l Z_{l+1} + g X_l + h Z_l)` on a ring — for
every number of spins and all couplings, and whatever further arguments (such as the time) `get_O_loc` is given. -/
theorem c138_matrix_partial (g : ℂ) (h : Option ℂ) (k : ℕ) (hk : k = 1 ∨ isingStrings L h < 50) :
    ∃ st, isingOperator (Arg := Arg) L g h = .ok st ∧ ∃ kernel, Represents kernel (ising (L := L) g (h.getD 0)) ∧
      ∀ args, (opKernel (branchFreeClass L 2 Arg k) st args).1 = .ok kernel := by
  refine ⟨_, isingOperator_eq g h, _, ?_, fun args => opKernel_built _ args k (by rwa [isingTerms_length])⟩
  intro s s'
  have := c26_reversed_product (((List.range L).flatMap (isingTerms (L := L) g h)).map Prod.snd)
    (((List.range L).flatMap (isingTerms (L := L) g h)).map Prod.fst) (by simp) (fun _ _ _ _ _ => rfl)
    (isingTerms_diag g h) s s'
  rw [this, sum_scaledTerms, ising_sum]

/-- With the further requirement that no matrix element is below the threshold, `get_O_loc` on samples of a network
computes `∑_l (-z_l z_{l+1} + h z_l) + g ∑_l ψ(s with spin l flipped) / ψ(s)` for every sample. -/
theorem c138_local_partial (g : ℂ) (h : Option ℂ) (hr : Resolved L g (h.getD 0)) (k : ℕ)
    (hk : k = 1 ∨ isingStrings L h < 50) (args : List Arg) :
    ∃ st kernel, isingOperator (Arg := Arg) L g h = .ok st ∧
      (opKernel (branchFreeClass L 2 Arg k) st args).1 = .ok kernel ∧
      OperatorOf kernel (ising (L := L) g (h.getD 0)) ∧
      ∀ (psi : Net (Config L 2)) (zeroCfg : Config L 2) (b : ℤ) (w : World (Config L 2 × ℂ × ℝ)),
        psi.logarithmic = true → SamplesOf psi.val w →
        oLocWorld kernel psi zeroCfg b w = .ok (World.map (fun x => (x.2.2, fun _ =>
          classicalEnergy (h.getD 0) x.1 + g * ∑ l, Complex.exp (psi.val (flipSpin x.1 l) - psi.val x.1))) w) := by
  obtain ⟨st, h1, kernel, h2, h3⟩ := c138_matrix_partial (Arg := Arg) (L := L) g h k hk
  have hker : kernel = branchFreeKernel (((List.range L).flatMap (isingTerms (L := L) g h)).map Prod.snd)
      (((List.range L).flatMap (isingTerms (L := L) g h)).map Prod.fst) := by
    have e : st = builtOp ((List.range L).flatMap (isingTerms g h)) := Except.ok.inj (h1.symm.trans (isingOperator_eq g h))
    have := h3 args
    rw [e, opKernel_built _ args k (by rwa [isingTerms_length])] at this
    exact (Except.ok.inj this).symm
  have hop : OperatorOf kernel (ising (L := L) g (h.getD 0)) := by
    refine ⟨h2, ⟨isingStrings L h, fun s => ?_⟩, fun s e he => ?_⟩
    · rw [hker]
      simp only [branchFreeKernel, kernelMasked, List.length_zip, mergeDiag_length, rawSPrimes, List.length_map,
        List.length_zipWith, min_self]
      exact isingTerms_length g h
    · rw [hker] at he
      rcases ising_entries g h s e he with h4 | h4 | h4
      · exact Or.inl h4
      · rw [h4]
        exact hr.2 s
      · rw [h4]
        exact hr.1
  refine ⟨st, kernel, h1, h3 args, hop, fun psi zeroCfg b w hlog hw => ?_⟩
  rw [oLocWorld_eq hop psi hlog zeroCfg b w hw]
  congr 2
  funext x
  congr 1
  funext _
  unfold localValue
  rw [ising_mulVec, add_div, mul_div_assoc, div_self (Complex.exp_ne_zero _), mul_one, mul_div_assoc, Finset.sum_div]
  simp only [Complex.exp_sub]

/-- Without a longitudinal field the requirement only concerns the transverse one: the classical energies are
integers. -/
theorem c138_integer (g : ℂ) (hg : g = 0 ∨ (1e-6 : ℝ) < ‖g‖) : Resolved L g 0 := by
  refine ⟨hg, fun s => ?_⟩
  have hz : ∀ a : Fin 2, ∃ n : ℤ, spinValue a = n := by
    intro a
    unfold spinValue
    split_ifs
    · exact ⟨-1, by simp⟩
    · exact ⟨1, by simp⟩
  choose z hz using hz
  have he : classicalEnergy 0 s = ((∑ l, -(z (s l) * z (s (l + 1))) : ℤ) : ℂ) := by
    unfold classicalEnergy
    rw [Int.cast_sum]
    refine Finset.sum_congr rfl fun l _ => ?_
    rw [hz, hz]
    push_cast
    ring
  rw [he]
  generalize (∑ l, -(z (s l) * z (s (l + 1))) : ℤ) = n
  by_cases hn : n = 0
  · exact Or.inl (by rw [hn]; simp)
  · refine Or.inr ?_
    rw [Complex.norm_intCast]
    have : (1 : ℝ) ≤ |(n : ℝ)| := by exact_mod_cast Int.one_le_abs hn
    refine lt_of_lt_of_le ?_ this
    norm_num

/-- Measuring the energy with the exact sampler of the second example yields `⟨ψ|H|ψ⟩ / ⟨ψ|ψ⟩`. -/
theorem c138_energy_partial (g : ℂ) (h : Option ℂ) (hr : Resolved L g (h.getD 0)) (k : ℕ)
    (hk : k = 1 ∨ isingStrings L h < 50) (args : List Arg) (D : ℕ) (hD : 0 < D) (hs : 0 < k) (hbig : k ≤ 2 ^ L)
    (hdiv : ∀ r < k, ∀ n g, distributeSampling k r (2 ^ L) none 1 = .ok (n, g) → D ∣ n)
    (lastNorm : ℝ) (logPsi : Config L 2 → ℂ) (zeroCfg : Config L 2) (b : ℤ) :
    ∃ st kernel ln' w res, isingOperator (Arg := Arg) L g h = .ok st ∧
      (opKernel (branchFreeClass L 2 Arg k) st args).1 = .ok kernel ∧
      exactSampleWorld 2 L D k (toConfig L 2) (1 / 2) lastNorm logPsi = .ok (ln', w) ∧
      measureOp kernel ⟨logPsi, true⟩ zeroCfg b none w = .ok res ∧ res.length = k ∧
      ∀ r ∈ res, r.mean = (Spec.expect (ising (L := L) g (h.getD 0)) fun c => Complex.exp (logPsi c)).re := by
  obtain ⟨st, kernel, h1, h2, h3, _⟩ := c138_local_partial (Arg := Arg) g h hr k hk args
  obtain ⟨ln', w, e1, e2, _, e4, e5⟩ := c77_exact_sampler 2 L D k le_rfl hD hs hbig hdiv lastNorm logPsi
  obtain ⟨res, f1, f2, f3⟩ := c77_mean h3 ⟨logPsi, true⟩ rfl zeroCfg b none w e4 e5
  exact ⟨st, kernel, ln', w, res, h1, h2, e1, f1, f2.trans e2, f3⟩

/-! ## Bounds -/

omit [NeZero L] in
theorem flipSpin_flipSpin (s : Config L 2) (l : Fin L) : flipSpin (flipSpin s l) l = s := by
  unfold flipSpin
  rw [Function.update_self, Function.update_idem, show (1 : Fin 2) - (1 - s l) = s l by omega, Function.update_eq_self]

/-- Flipping a spin is a bijection. -/
def flipEquiv (l : Fin L) : Config L 2 ≃ Config L 2 :=
  ⟨fun s => flipSpin s l, fun s => flipSpin s l, fun s => flipSpin_flipSpin s l, fun s => flipSpin_flipSpin s l⟩

omit [NeZero L] in
theorem flip_overlap (ψ : Config L 2 → ℂ) (l : Fin L) :
    ∑ s, ‖ψ s‖ * ‖ψ (flipSpin s l)‖ ≤ norm2 ψ := by
  have h1 : ∑ s, Complex.normSq (ψ (flipSpin s l)) = norm2 ψ :=
    Equiv.sum_comp (flipEquiv l) fun s => Complex.normSq (ψ s)
  have h2 : ∑ s, ‖ψ s‖ * ‖ψ (flipSpin s l)‖ ≤
      ∑ s, (Complex.normSq (ψ s) / 2 + Complex.normSq (ψ (flipSpin s l)) / 2) := by
    refine Finset.sum_le_sum fun s _ => ?_
    rw [Complex.normSq_eq_norm_sq, Complex.normSq_eq_norm_sq]
    nlinarith [sq_nonneg (‖ψ s‖ - ‖ψ (flipSpin s l)‖)]
  refine h2.trans_eq ?_
  rw [Finset.sum_add_distrib, ← Finset.sum_div, ← Finset.sum_div, h1]
  unfold norm2
  ring

omit [NeZero L] in
theorem spinValue_abs (a : Fin 2) : |spinValue a| = 1 := by
  unfold spinValue
  split_ifs <;> simp

theorem classicalEnergy_le (h : ℂ) (s : Config L 2) : ‖classicalEnergy h s‖ ≤ L * (1 + ‖h‖) := by
  unfold classicalEnergy
  refine (norm_sum_le _ _).trans ?_
  have : ∀ l ∈ Finset.univ, ‖(-(spinValue (s l) * spinValue (s (l + 1)) : ℝ) + h * spinValue (s l) : ℂ)‖ ≤ 1 + ‖h‖ := by
    intro l _
    refine (norm_add_le _ _).trans (le_of_eq ?_)
    rw [norm_neg, Complex.norm_real, Real.norm_eq_abs, abs_mul, spinValue_abs, spinValue_abs, norm_mul,
      Complex.norm_real, Real.norm_eq_abs, spinValue_abs]
    ring
  refine (Finset.sum_le_sum this).trans (le_of_eq ?_)
  rw [Finset.sum_const, Finset.card_univ, Fintype.card_fin, nsmul_eq_mul]

/-- The energy of no wave function exceeds `L (1 + |g| + |h|)` in absolute value. -/
theorem c138_bound (g h : ℂ) (ψ : Config L 2 → ℂ) : ‖Spec.expect (ising (L := L) g h) ψ‖ ≤ L * (1 + ‖g‖ + ‖h‖) := by
  have hn : 0 ≤ norm2 ψ := Finset.sum_nonneg fun s _ => Complex.normSq_nonneg _
  unfold Spec.expect
  rw [norm_div, Complex.norm_real, Real.norm_of_nonneg hn]
  refine div_le_of_le_mul₀ hn (by positivity) ?_
  have h1 : ∀ s ∈ Finset.univ, ‖(starRingEnd ℂ) (ψ s) * (ising (L := L) g h *ᵥ ψ) s‖ ≤
      L * (1 + ‖h‖) * Complex.normSq (ψ s) + ‖g‖ * ∑ l, ‖ψ s‖ * ‖ψ (flipSpin s l)‖ := by
    intro s _
    rw [norm_mul, RCLike.norm_conj, ising_mulVec, Complex.normSq_eq_norm_sq, ← Finset.mul_sum]
    have h2 : ‖classicalEnergy h s * ψ s + g * ∑ l, ψ (flipSpin s l)‖ ≤
        L * (1 + ‖h‖) * ‖ψ s‖ + ‖g‖ * ∑ l, ‖ψ (flipSpin s l)‖ := by
      refine (norm_add_le _ _).trans (add_le_add ?_ ?_)
      · rw [norm_mul]
        exact mul_le_mul_of_nonneg_right (classicalEnergy_le h s) (norm_nonneg _)
      · rw [norm_mul]
        exact mul_le_mul_of_nonneg_left (norm_sum_le _ _) (norm_nonneg _)
    refine (mul_le_mul_of_nonneg_left h2 (norm_nonneg _)).trans (le_of_eq ?_)
    ring
  refine (norm_sum_le _ _).trans ((Finset.sum_le_sum h1).trans ?_)
  rw [Finset.sum_add_distrib, ← Finset.mul_sum, ← Finset.mul_sum, Finset.sum_comm]
  have h3 : ∑ l : Fin L, ∑ s, ‖ψ s‖ * ‖ψ (flipSpin s l)‖ ≤ L * norm2 ψ := by
    refine (Finset.sum_le_sum fun l _ => flip_overlap ψ l).trans (le_of_eq ?_)
    simp
  have h4 := mul_le_mul_of_nonneg_left h3 (norm_nonneg g)
  change L * (1 + ‖h‖) * norm2 ψ + _ ≤ _
  nlinarith

/-! ## Hermiticity and symmetries -/

omit [NeZero L] in
theorem siteOperator_conjTranspose (i : Fin L) (A : Matrix (Fin 2) (Fin 2) ℂ) :
    (siteOperator i A)ᴴ = siteOperator i Aᴴ := by
  apply Matrix.ext
  intro s s'
  rw [conjTranspose_apply]
  unfold siteOperator
  rw [conjTranspose_apply, star_mul']
  congr 1
  have : (∀ j, j ≠ i → s' j = s j) ↔ ∀ j, j ≠ i → s j = s' j :=
    ⟨fun hh j hj => (hh j hj).symm, fun hh j hj => (hh j hj).symm⟩
  simp only [this]
  split_ifs <;> simp

theorem sigmaZ_conj : sigmaZᴴ = sigmaZ := by
  ext a b
  fin_cases a <;> fin_cases b <;> simp [sigmaZ, conjTranspose_apply]

theorem sigmaX_conj : sigmaXᴴ = sigmaX := by
  ext a b
  fin_cases a <;> fin_cases b <;> simp [sigmaX, conjTranspose_apply]

/-- For real couplings the Hamiltonian is Hermitian. -/
theorem c138_hermitian (g h : ℝ) : (ising (L := L) (g : ℂ) (h : ℂ)).IsHermitian := by
  unfold IsHermitian ising
  rw [conjTranspose_sum]
  refine Finset.sum_congr rfl fun l _ => ?_
  rw [conjTranspose_add, conjTranspose_add, conjTranspose_neg, conjTranspose_mul, conjTranspose_smul,
    conjTranspose_smul, siteOperator_conjTranspose, siteOperator_conjTranspose, siteOperator_conjTranspose, sigmaZ_conj,
    sigmaX_conj, siteZ_commute (l + 1) l]
  simp

/-- The permutations of the sites of a ring that map neighbours to neighbours: translations and reflections. -/
def RingSymmetry (σ : Equiv.Perm (Fin L)) : Prop := (∀ i, σ (i + 1) = σ i + 1) ∨ ∀ i, σ i = σ (i + 1) + 1

omit [NeZero L] in
theorem flip_moved (σ : Equiv.Perm (Fin L)) (flip : Bool) (s : Config L 2) (l : Fin L) :
    flipSpin (movedConfig σ flip s) l = movedConfig σ flip (flipSpin s (σ l)) := by
  funext i
  unfold flipSpin movedConfig
  by_cases hi : i = l
  · subst hi
    simp only [Function.update_self]
    unfold flipIf
    obtain hs | hs : s (σ i) = 0 ∨ s (σ i) = 1 := by omega
    all_goals rw [hs]; cases flip <;> decide
  · rw [Function.update_of_ne hi, Function.update_of_ne (fun e => hi (σ.injective e))]

theorem spinValue_flipIf (flip : Bool) (a : Fin 2) :
    spinValue (flipIf flip a) = (if flip then -1 else 1) * spinValue a := by
  unfold flipIf
  obtain ha | ha : a = 0 ∨ a = 1 := by omega
  all_goals rw [ha]; cases flip <;> simp [spinValue]

theorem classicalEnergy_moved (h : ℂ) (σ : Equiv.Perm (Fin L)) (hσ : RingSymmetry σ) (flip : Bool)
    (hf : flip = true → h = 0) (s : Config L 2) :
    classicalEnergy h (movedConfig σ flip s) = classicalEnergy h s := by
  have hpair : ∀ i j : Fin L, spinValue (movedConfig σ flip s i) * spinValue (movedConfig σ flip s j) =
      spinValue (s (σ i)) * spinValue (s (σ j)) := by
    intro i j
    unfold movedConfig
    rw [spinValue_flipIf, spinValue_flipIf]
    cases flip <;> simp
  have hone : ∀ i : Fin L, h * (spinValue (movedConfig σ flip s i) : ℂ) = h * (spinValue (s (σ i)) : ℂ) := by
    intro i
    unfold movedConfig
    rw [spinValue_flipIf]
    cases flip with
    | false => simp
    | true => simp [hf rfl]
  unfold classicalEnergy
  simp only [hpair, hone]
  rw [Finset.sum_add_distrib, Finset.sum_add_distrib]
  congr 1
  · rcases hσ with hσ | hσ
    · simp only [hσ]
      exact Equiv.sum_comp σ fun i => (-((spinValue (s i) * spinValue (s (i + 1)) : ℝ) : ℂ))
    · have e : ∀ i : Fin L, (-((spinValue (s (σ i)) * spinValue (s (σ (i + 1))) : ℝ) : ℂ)) =
          (fun j => -((spinValue (s (σ j)) * spinValue (s (σ j + 1)) : ℝ) : ℂ)) (i + 1) := by
        intro i
        dsimp only
        rw [← hσ i, mul_comm]
      rw [Finset.sum_congr rfl fun i _ => e i]
      refine (Equiv.sum_comp (Equiv.addRight (1 : Fin L))
        (fun j => -((spinValue (s (σ j)) * spinValue (s (σ j + 1)) : ℝ) : ℂ))).trans ?_
      exact Equiv.sum_comp σ fun i => (-((spinValue (s i) * spinValue (s (i + 1)) : ℝ) : ℂ))
  · exact Equiv.sum_comp σ fun i => h * (spinValue (s i) : ℂ)

/-- The Hamiltonian commutes with translations and reflections of the ring and, without a longitudinal field, with
the exchange of up and down, the symmetries the examples build into their networks. -/
theorem c138_symmetries (g h : ℂ) (σ : Equiv.Perm (Fin L)) (hσ : RingSymmetry σ) (flip : Bool)
    (hf : flip = true → h = 0) (ψ : Config L 2 → ℂ) (s : Config L 2) :
    (ising (L := L) g h *ᵥ fun c => ψ (movedConfig σ flip c)) s = (ising (L := L) g h *ᵥ ψ) (movedConfig σ flip s) := by
  rw [ising_mulVec, ising_mulVec, classicalEnergy_moved h σ hσ flip hf]
  congr 2
  simp only [flip_moved]
  exact (Equiv.sum_comp σ fun l => ψ (movedConfig σ flip (flipSpin s l))).symm

/-- The exchange of up and down is a symmetry only without a longitudinal field. -/
theorem c138_field_breaks (g h : ℂ) (hh : h ≠ 0) : ∃ (ψ : Config L 2 → ℂ) (s : Config L 2),
    (ising (L := L) g h *ᵥ fun c => ψ (movedConfig 1 true c)) s ≠
      (ising (L := L) g h *ᵥ ψ) (movedConfig 1 true s) := by
  refine ⟨fun _ => 1, fun _ => 0, ?_⟩
  rw [ising_mulVec, ising_mulVec]
  intro he
  have h1 := add_right_cancel he
  have h2 : classicalEnergy h (fun _ : Fin L => (0 : Fin 2)) = L * (-1 - h) := by
    simp [classicalEnergy, spinValue]
    ring
  have h3 : classicalEnergy h (movedConfig 1 true fun _ : Fin L => (0 : Fin 2)) = L * (-1 + h) := by
    simp [classicalEnergy, spinValue, movedConfig, flipIf]
    ring
  rw [h2, h3, mul_one, mul_one] at h1
  have hL : (L : ℂ) ≠ 0 := Nat.cast_ne_zero.2 (NeZero.ne L)
  have h4 := mul_left_cancel₀ hL h1
  apply hh
  linear_combination (-1 / 2 : ℂ) * h4

/-! ## The observable -/

/-- The observable of the second example, up to a million spins: on one rank or with fewer than 50 spins its measured
mean is `⟨1/L ∑ X_l⟩`, a number between -1 and 1. -/
theorem c138_magnet_partial (hL : L < 10 ^ 6) (k : ℕ) (hk : k = 1 ∨ L < 50) (args : List Arg) (D : ℕ) (hD : 0 < D)
    (hs : 0 < k) (hbig : k ≤ 2 ^ L) (hdiv : ∀ r < k, ∀ n g, distributeSampling k r (2 ^ L) none 1 = .ok (n, g) → D ∣ n)
    (lastNorm : ℝ) (logPsi : Config L 2 → ℂ) (zeroCfg : Config L 2) (b : ℤ) :
    ∃ st kernel ln' w res, magnetOperator (Arg := Arg) L = .ok st ∧
      (opKernel (branchFreeClass L 2 Arg k) st args).1 = .ok kernel ∧
      Represents kernel (transverse (L := L)) ∧
      exactSampleWorld 2 L D k (toConfig L 2) (1 / 2) lastNorm logPsi = .ok (ln', w) ∧
      measureOp kernel ⟨logPsi, true⟩ zeroCfg b none w = .ok res ∧ res.length = k ∧
      ∀ r ∈ res, r.mean = (Spec.expect (transverse (L := L)) fun c => Complex.exp (logPsi c)).re ∧ |r.mean| ≤ 1 := by
  have hLpos : (0 : ℝ) < L := Nat.cast_pos.2 (Nat.pos_of_ne_zero (NeZero.ne L))
  have hlen : ((List.range L).flatMap fun l => [(1 / (L : ℂ), [opSx (Fin.ofNat L l)])]).length = L := by
    rw [length_flatMap_const _ 1 (fun _ => rfl), one_mul]
  have hop := operatorOf_branchFree (((List.range L).flatMap fun l => [(1 / (L : ℂ), [opSx (Fin.ofNat L l)])]).map Prod.snd)
    (((List.range L).flatMap fun l => [(1 / (L : ℂ), [opSx (Fin.ofNat L l)])]).map Prod.fst) (by simp)
    (fun _ _ _ _ _ => rfl) (by
      intro ops hops o ho hd
      obtain ⟨t, ht, rfl⟩ := List.mem_map.1 hops
      obtain ⟨l, _, ht⟩ := List.mem_flatMap.1 ht
      rw [List.mem_singleton] at ht
      subst ht
      dsimp only at ho
      rw [List.mem_singleton] at ho
      subst ho
      simp [opSx] at hd) (by
      intro s e he
      rcases magnet_entries s e he with h | h
      · exact Or.inl h
      · refine Or.inr ?_
        rw [h, norm_div, norm_one, Complex.norm_natCast, lt_div_iff₀ hLpos]
        have h6 : (L : ℝ) < 10 ^ 6 := by exact_mod_cast hL
        calc (1e-6 : ℝ) * L < 1e-6 * 10 ^ 6 := mul_lt_mul_of_pos_left h6 (by norm_num)
          _ = 1 := by norm_num)
  rw [sum_scaledTerms, magnet_sum] at hop
  obtain ⟨ln', w, e1, e2, _, e4, e5⟩ := c77_exact_sampler 2 L D k le_rfl hD hs hbig hdiv lastNorm logPsi
  obtain ⟨res, f1, f2, f3⟩ := c77_mean hop ⟨logPsi, true⟩ rfl zeroCfg b none w e4 e5
  refine ⟨_, _, ln', w, res, magnetOperator_eq, opKernel_built _ args k (by rwa [hlen]), hop.elements, e1, f1,
    f2.trans e2, fun r hr => ⟨f3 r hr, ?_⟩⟩
  rw [f3 r hr]
  refine (Complex.abs_re_le_norm _).trans ?_
  generalize (fun c => Complex.exp (Net.val ⟨logPsi, true⟩ c)) = ψ
  have hn : 0 ≤ norm2 ψ := Finset.sum_nonneg fun s _ => Complex.normSq_nonneg _
  unfold Spec.expect
  rw [norm_div, Complex.norm_real, Real.norm_of_nonneg hn]
  refine div_le_of_le_mul₀ hn zero_le_one ?_
  have h1 : ∀ s ∈ Finset.univ, ‖(starRingEnd ℂ) (ψ s) * (transverse (L := L) *ᵥ ψ) s‖ ≤
      1 / L * ∑ l, ‖ψ s‖ * ‖ψ (flipSpin s l)‖ := by
    intro s _
    rw [norm_mul, RCLike.norm_conj, transverse_mulVec, norm_mul, norm_div, norm_one, Complex.norm_natCast,
      ← Finset.mul_sum, ← mul_assoc, mul_comm ‖ψ s‖, mul_assoc]
    exact mul_le_mul_of_nonneg_left (mul_le_mul_of_nonneg_left (norm_sum_le _ _) (norm_nonneg _)) (by positivity)
  refine (norm_sum_le _ _).trans ((Finset.sum_le_sum h1).trans ?_)
  rw [← Finset.mul_sum, Finset.sum_comm]
  have h3 : ∑ l : Fin L, ∑ s, ‖ψ s‖ * ‖ψ (flipSpin s l)‖ ≤ L * norm2 ψ := by
    refine (Finset.sum_le_sum fun l _ => flip_overlap ψ l).trans (le_of_eq ?_)
    simp
  rw [one_mul, one_div, inv_mul_le_iff₀ hLpos]
  exact h3

/-! ## Several ranks -/

/-- On two or more ranks the Hamiltonian cannot be evaluated when it has 50 or more strings: 25 spins without, 17 with
the longitudinal field. The benchmark script with its 50 spins fails in this way. -/
theorem c138_ranks_violated (g : ℂ) (h : Option ℂ) (k : ℕ) (hk : 2 ≤ k) (hL : 50 ≤ isingStrings L h) (args : List Arg)
    (s : Config L 2) :
    ∃ st, isingOperator (Arg := Arg) L g h = .ok st ∧
      branchFreeElements st.ops args k s = .error .indexError ∧
      ∀ kernel, (opKernel (branchFreeClass L 2 Arg k) st args).1 ≠ .ok kernel := by
  refine ⟨_, isingOperator_eq g h, ?_⟩
  have hlen := isingTerms_length (L := L) g h
  generalize (List.range L).flatMap (isingTerms (L := L) g h) = terms at hlen ⊢
  have herr : argFun ((List.range terms.length).zip (terms.map Prod.fst)) (List.replicate terms.length (1 : ℂ)) k =
      .error .indexError := by
    have := (c32_violated (terms.map Prod.fst) (List.replicate terms.length (1 : ℂ)) k (by simpa [hlen] using hL)
      (by simp) hk).1
    rwa [List.length_map] at this
  constructor
  · unfold branchFreeElements builtOp
    dsimp only
    rw [evalPrefactors_scaled, okBind, ← List.range_eq_range', List.length_map, herr]
    rfl
  · intro kernel hker
    have hp : (branchFreeClass L 2 Arg k).prep (terms.map scaledStr) args = .error .indexError :=
      (prep_scaled args terms k).trans herr
    have he : OpState.eval (fun ts => succeeds ((branchFreeClass L 2 Arg k).prep ts args)) (builtOp terms) args.length =
        (.error .typeError, (OpState.eval (fun ts => succeeds ((branchFreeClass L 2 Arg k).prep ts args)) (builtOp terms)
          args.length).2) := by
      unfold OpState.eval builtOp
      simp [hp, succeeds]
    unfold opKernel at hker
    rw [he] at hker
    simp at hker

/-! ## Non-vacuity -/

/-- The first example: ten spins, `g = -0.7`, no longitudinal field, two ranks, the time as a further argument. -/
example (logPsi : Config 10 2 → ℂ) (t : ℝ) :=
  c138_energy_partial (L := 10) (-0.7) none (c138_integer (-0.7) (Or.inr (by
    rw [norm_neg]
    norm_num))) 2 (Or.inr (by norm_num [isingStrings])) [t] 1 one_pos two_pos (by norm_num) (fun _ _ n _ _ => one_dvd n) 0
    logPsi (fun _ => 0) 3

/-- The benchmark: 50 spins on four ranks. -/
example (s : Config 50 2) : ∃ st, isingOperator (Arg := ℝ) 50 (-0.7) none = .ok st ∧
    branchFreeElements st.ops [0] 4 s = .error .indexError ∧
    ∀ kernel, (opKernel (branchFreeClass 50 2 ℝ 4) st [0]).1 ≠ .ok kernel :=
  c138_ranks_violated _ none 4 (by norm_num) (by norm_num [isingStrings]) _ s

/-- Translations and reflections. -/
example : RingSymmetry (Equiv.addRight (1 : Fin 10)) ∧ RingSymmetry (Equiv.neg (Fin 10)) := by
  refine ⟨Or.inl fun i => rfl, Or.inr fun i => ?_⟩
  simp

/-- Six spins on one rank. -/
example (logPsi : Config 6 2 → ℂ) := c138_magnet_partial (Arg := ℝ) (L := 6) (by norm_num) 1 (Or.inl rfl) [] 1 one_pos
  one_pos (by norm_num) (fun _ _ n _ _ => one_dvd n) 0 logPsi (fun _ => 0) 3

end JVMC
