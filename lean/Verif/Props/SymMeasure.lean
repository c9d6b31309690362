import Verif.Props.SymNet
import Verif.Props.Variational

/-!
# Measurements with symmetrised networks (C111)
-/

namespace JVMC

open Spec Matrix

/-! ## Specification -/

/-- Spin up and spin down are exchanged if `flip`. -/
def flipIf (flip : Bool) (a : Fin 2) : Fin 2 := if flip then a.rev else a

/-- The configuration whose site `i` carries the (flipped, if requested) spin of site `σ i` of `s`. -/
def movedConfig {N : ℕ} (σ : Equiv.Perm (Fin N)) (flip : Bool) (s : Config N 2) : Config N 2 :=
  fun i => flipIf flip (s (σ i))

/-- The dictionary of the operator that acts on site `σ i` as `o` acts on its site `i`, with spin up and spin down
exchanged if requested. -/
def movedOp {N : ℕ} (σ : Equiv.Perm (Fin N)) (flip : Bool) (o : LocalOp N 2) : LocalOp N 2 :=
  ⟨σ o.idx, fun a => flipIf flip (o.map (flipIf flip a)), fun a => o.matEls (flipIf flip a), o.diag, o.fermionic⟩

/-- The configuration with entries 0 and 1 as the network reads it. -/
def spins {N : ℕ} (s : Config N 2) : Fin N → ℤ := fun i => ((s i : ℕ) : ℤ)

/-- The wave function changes by a constant factor only. -/
def SymmetricUnder {N : ℕ} (σ : Equiv.Perm (Fin N)) (flip : Bool) (logPsi : Config N 2 → ℂ) : Prop :=
  ∃ c : ℂ, ∀ s, c * Complex.exp (logPsi (movedConfig σ flip s)) = Complex.exp (logPsi s)

/-- The group element `h` moves spins along `σ` and flips them if `flip`. -/
def MovesSpins {N : ℕ} (h : Matrix (Fin N) (Fin N) ℤ) (σ : Equiv.Perm (Fin N)) (flip : Bool) : Prop :=
  ∀ s i, (h *ᵥ s) i = (if flip then -1 else 1) * s (σ i)

/-! ## Lemmas -/

theorem flipIf_flipIf (flip : Bool) (a : Fin 2) : flipIf flip (flipIf flip a) = a := by
  unfold flipIf
  split_ifs <;> simp

theorem flipIf_inj (flip : Bool) {a b : Fin 2} : flipIf flip a = flipIf flip b ↔ a = b :=
  ⟨fun h => by rw [← flipIf_flipIf flip a, h, flipIf_flipIf], fun h => by rw [h]⟩

/-- Moving configurations is a bijection. -/
def movedEquiv {N : ℕ} (σ : Equiv.Perm (Fin N)) (flip : Bool) : Config N 2 ≃ Config N 2 where
  toFun := movedConfig σ flip
  invFun := fun s i => flipIf flip (s (σ.symm i))
  left_inv := fun s => by
    funext i
    simp [movedConfig, flipIf_flipIf]
  right_inv := fun s => by
    funext i
    simp [movedConfig, flipIf_flipIf]

theorem movedEquiv_apply {N : ℕ} (σ : Equiv.Perm (Fin N)) (flip : Bool) (s : Config N 2) :
    movedEquiv σ flip s = movedConfig σ flip s := rfl

theorem movedOp_matrix {N : ℕ} (σ : Equiv.Perm (Fin N)) (flip : Bool) (o : LocalOp N 2)
    (hb : o.fermionic = false) :
    opMatrix (movedOp σ flip o)
      = reindexAlgEquiv ℂ ℂ (movedEquiv σ flip).symm (opMatrix o) := by
  apply Matrix.ext
  intro s s'
  rw [coe_reindexAlgEquiv, reindex_apply, Equiv.symm_symm, submatrix_apply, movedEquiv_apply, movedEquiv_apply]
  unfold opMatrix
  have h1 : (movedOp σ flip o).fermionic = false := hb
  rw [h1, hb]
  simp only [Bool.false_eq_true, if_false]
  unfold siteOperator
  congr 1
  · unfold localMatrix movedOp movedConfig
    dsimp only
    congr 1
    apply propext
    constructor
    · intro h
      rw [h, flipIf_flipIf]
    · intro h
      rw [← h, flipIf_flipIf]
  · congr 1
    apply propext
    constructor
    · intro h j hj
      unfold movedConfig
      rw [h (σ j) fun hc => hj (σ.injective hc)]
    · intro h j hj
      have := h (σ.symm j) fun hc => hj (by change j = σ o.idx; rw [← hc]; simp)
      unfold movedConfig at this
      rw [flipIf_inj, Equiv.apply_symm_apply] at this
      exact this

theorem sumOfProducts_alg {N : ℕ} (f : Matrix (Config N 2) (Config N 2) ℂ ≃ₐ[ℂ] Matrix (Config N 2) (Config N 2) ℂ)
    (l : List (ℂ × List (Matrix (Config N 2) (Config N 2) ℂ))) :
    f (sumOfProducts l) = sumOfProducts (l.map fun t => (t.1, t.2.map f)) := by
  unfold sumOfProducts
  rw [map_list_sum, List.map_map, List.map_map]
  congr 1
  apply List.map_congr_left
  intro t _
  simp only [Function.comp_apply, map_smul, map_list_prod]

/-- The operator built from moved strings. -/
theorem moved_sum {N : ℕ} (σ : Equiv.Perm (Fin N)) (flip : Bool) (strs : List (List (LocalOp N 2))) (pfs : List ℂ)
    (hb : ∀ ops ∈ strs, ∀ o ∈ ops, o.fermionic = false) :
    sumOfProducts (pfs.zip ((strs.map fun ops => ops.map (movedOp σ flip)).map fun ops => (ops.map opMatrix).reverse))
      = reindexAlgEquiv ℂ ℂ (movedEquiv σ flip).symm
          (sumOfProducts (pfs.zip (strs.map fun ops => (ops.map opMatrix).reverse))) := by
  rw [sumOfProducts_alg, List.map_map]
  congr 1
  have h2 : ∀ t : ℂ × List (Matrix (Config N 2) (Config N 2) ℂ),
      (t.1, t.2.map (reindexAlgEquiv ℂ ℂ (movedEquiv σ flip).symm))
        = Prod.map id (List.map (reindexAlgEquiv ℂ ℂ (movedEquiv σ flip).symm)) t := fun t => rfl
  rw [List.map_congr_left (fun t _ => h2 t), ← List.zip_map, List.map_id, List.map_map]
  congr 1
  apply List.map_congr_left
  intro ops hops
  simp only [Function.comp_apply, List.map_reverse, List.map_map]
  congr 1
  apply List.map_congr_left
  intro o ho
  exact movedOp_matrix σ flip o (hb ops hops o ho)

/-- Expectation values do not depend on the numbering of the basis. -/
theorem expect_reindex {C : Type} [Fintype C] [DecidableEq C] (e : C ≃ C) (O : Matrix C C ℂ) (ψ : C → ℂ)
    (c : ℂ) (hc : ∀ s, c * ψ (e s) = ψ s) (hne : ∃ s, ψ s ≠ 0) :
    expect (reindexAlgEquiv ℂ ℂ e.symm O) ψ = expect O ψ ∧
      spread (reindexAlgEquiv ℂ ℂ e.symm O) ψ = spread O ψ := by
  have hc0 : c ≠ 0 := by
    rintro rfl
    obtain ⟨s, hs⟩ := hne
    exact hs (by rw [← hc s, zero_mul])
  have hcn : Complex.normSq c ≠ 0 := fun h => hc0 (Complex.normSq_eq_zero.mp h)
  have hmul : ∀ s, (reindexAlgEquiv ℂ ℂ e.symm O *ᵥ ψ) s = c * (O *ᵥ ψ) (e s) := by
    intro s
    rw [coe_reindexAlgEquiv, reindex_apply, Equiv.symm_symm]
    simp only [mulVec, dotProduct, submatrix_apply]
    rw [Finset.mul_sum, ← Equiv.sum_comp e (fun x => c * (O (e s) x * ψ x))]
    refine Finset.sum_congr rfl fun x _ => ?_
    rw [← hc x]
    ring
  have hn : norm2 ψ = Complex.normSq c * norm2 ψ := by
    conv_lhs => unfold norm2
    conv_rhs => unfold norm2
    rw [Finset.mul_sum, ← Equiv.sum_comp e (fun x => Complex.normSq c * Complex.normSq (ψ x))]
    refine Finset.sum_congr rfl fun x _ => ?_
    rw [← hc x, Complex.normSq_mul]
  have hpos : norm2 ψ ≠ 0 := by
    obtain ⟨s, hs⟩ := hne
    exact (norm2_pos ψ s hs).ne'
  have hc1 : Complex.normSq c = 1 := by
    have : Complex.normSq c * norm2 ψ = 1 * norm2 ψ := by rw [one_mul, ← hn]
    exact mul_right_cancel₀ hpos this
  have he : expect (reindexAlgEquiv ℂ ℂ e.symm O) ψ = expect O ψ := by
    unfold expect
    congr 1
    rw [← Equiv.sum_comp e (fun s => (starRingEnd ℂ) (ψ s) * (O *ᵥ ψ) s)]
    refine Finset.sum_congr rfl fun s _ => ?_
    rw [hmul, ← hc s, map_mul]
    have : (starRingEnd ℂ) c * c = 1 := by
      rw [mul_comm, Complex.mul_conj, hc1, Complex.ofReal_one]
    linear_combination (starRingEnd ℂ) (ψ (e s)) * (O *ᵥ ψ) (e s) * this
  refine ⟨he, ?_⟩
  unfold spread
  rw [he]
  congr 2
  unfold norm2
  rw [← Equiv.sum_comp e (fun s => Complex.normSq ((O *ᵥ ψ) s))]
  refine Finset.sum_congr rfl fun s _ => ?_
  rw [hmul, Complex.normSq_mul, hc1, one_mul]

/-! ## C111 — wave functions of symmetrised networks are symmetric -/

/-- Every element of the group moves spins and flips all or none. -/
theorem c111_moves (L : ℕ) (hL : 0 < L) (translation reflection rotation spinflip : Bool) :
    (∀ h ∈ Submonoid.closure (gens1D L translation reflection spinflip), ∃ σ flip, MovesSpins h σ flip) ∧
    (∀ h ∈ Submonoid.closure (gens2D L translation reflection rotation spinflip), ∃ σ flip, MovesSpins h σ flip) := by
  have : NeZero L := ⟨hL.ne'⟩
  have key : ∀ {n : ℕ} {h : Matrix (Fin n) (Fin n) ℤ}, SignedPermutation h → ∃ σ flip, MovesSpins h σ flip := by
    rintro n h ⟨σ, e, rfl | rfl, hh⟩
    · exact ⟨σ, false, fun s i => by rw [hh]; simp⟩
    · exact ⟨σ, true, fun s i => by rw [hh]; simp⟩
  constructor
  · intro h hh
    have hg := group1D L translation reflection spinflip 1 1 1
    exact key (hg.signed h ((hg.generated h).mpr hh))
  · intro h hh
    have hg := group2D L translation reflection rotation spinflip 1 1 1 1
    exact key (hg.signed h ((hg.generated h).mpr hh))

theorem moved_image {N : ℕ} {h : Matrix (Fin N) (Fin N) ℤ} {σ : Equiv.Perm (Fin N)} {flip : Bool}
    (hm : MovesSpins h σ flip) (s : Config N 2) : IsImage h (spins s) (spins (movedConfig σ flip s)) := by
  intro i
  have := hm (fun j => 2 * spins s j - 1) i
  simp only [mulVec, dotProduct] at this
  rw [this]
  unfold spins movedConfig flipIf
  generalize s (σ i) = a
  cases flip <;> fin_cases a <;> rfl

/-- C111 on chains: the amplitudes of a symmetrised network, for every one-dimensional representation. -/
theorem c111_chain (L : ℕ) (hL : 0 < L) (translation reflection spinflip : Bool) (tf rf sf : ℂ)
    (χ : Matrix (Fin L) (Fin L) ℤ → ℂ) (hχ : IsCharacter (gens1D L translation reflection spinflip) χ)
    (ht : translation = true → ∀ M, IsShift1D M → χ M = tf)
    (hr : reflection = true → ∀ M, IsReflection1D M → χ M = rf)
    (hsf : spinflip = true → ∀ M, IsSpinflip M → χ M = sf) (net : (Fin L → ℤ) → ℂ)
    (logPsi : Config L 2 → ℂ)
    (hlog : let sym := getOrbit1D L translation reflection spinflip tf rf sf
      ∀ s, symNet avgExp net sym.orbit sym.factor (spins s) = some (logPsi s))
    (h : Matrix (Fin L) (Fin L) ℤ) (hh : h ∈ Submonoid.closure (gens1D L translation reflection spinflip))
    (σ : Equiv.Perm (Fin L)) (flip : Bool) (hm : MovesSpins h σ flip) : SymmetricUnder σ flip logPsi := by
  refine ⟨χ h, fun s => ?_⟩
  have := c57_character_1d_partial L hL translation reflection spinflip tf rf sf χ hχ ht hr hsf net h hh
    (spins s) (spins (movedConfig σ flip s)) (moved_image hm s)
  dsimp only at this hlog
  rw [hlog, hlog] at this
  exact this

/-- C111 on square lattices. -/
theorem c111_square (L : ℕ) (hL : 0 < L) (translation reflection rotation spinflip : Bool)
    (tf rf qf sf : ℂ) (χ : Matrix (Fin (L * L)) (Fin (L * L)) ℤ → ℂ)
    (hχ : IsCharacter (gens2D L translation reflection rotation spinflip) χ)
    (ht : translation = true → ∀ M, IsShiftRows M ∨ IsShiftCols M → χ M = tf)
    (hr : reflection = true → ∀ M, IsFlipRows M ∨ IsFlipCols M → χ M = rf)
    (hq : rotation = true → ∀ M, IsRotation M → χ M = qf)
    (hsf : spinflip = true → ∀ M, IsSpinflip M → χ M = sf) (net : (Fin (L * L) → ℤ) → ℂ)
    (logPsi : Config (L * L) 2 → ℂ)
    (hlog : let sym := getOrbit2D L translation reflection rotation spinflip tf rf qf sf
      ∀ s, symNet avgExp net sym.orbit sym.factor (spins s) = some (logPsi s))
    (h : Matrix (Fin (L * L)) (Fin (L * L)) ℤ)
    (hh : h ∈ Submonoid.closure (gens2D L translation reflection rotation spinflip))
    (σ : Equiv.Perm (Fin (L * L))) (flip : Bool) (hm : MovesSpins h σ flip) : SymmetricUnder σ flip logPsi := by
  refine ⟨χ h, fun s => ?_⟩
  have := c57_character_2d_partial L hL translation reflection rotation spinflip tf rf qf sf χ hχ ht hr hq hsf net h hh
    (spins s) (spins (movedConfig σ flip s)) (moved_image hm s)
  dsimp only at this hlog
  rw [hlog, hlog] at this
  exact this

/-- C111: the other averaging functions. -/
theorem c111_other (L : ℕ) (hL : 0 < L) (translation reflection rotation spinflip : Bool) (tf rf qf sf : ℂ) :
    (∀ (net : (Fin L → ℤ) → ℂ) (h : Matrix (Fin L) (Fin L) ℤ),
      h ∈ Submonoid.closure (gens1D L translation reflection spinflip) → ∀ σ flip, MovesSpins h σ flip →
      let sym := getOrbit1D L translation reflection spinflip tf rf sf
      SymmetricUnder σ flip (fun s => symNet avgLog net sym.orbit sym.factor (spins s)) ∧
      SymmetricUnder σ flip (fun s => symNet avgSep net sym.orbit sym.factor (spins s))) ∧
    (∀ (net : (Fin (L * L) → ℤ) → ℂ) (h : Matrix (Fin (L * L)) (Fin (L * L)) ℤ),
      h ∈ Submonoid.closure (gens2D L translation reflection rotation spinflip) → ∀ σ flip, MovesSpins h σ flip →
      let sym := getOrbit2D L translation reflection rotation spinflip tf rf qf sf
      SymmetricUnder σ flip (fun s => symNet avgLog net sym.orbit sym.factor (spins s)) ∧
      SymmetricUnder σ flip (fun s => symNet avgSep net sym.orbit sym.factor (spins s))) := by
  obtain ⟨h1, h2⟩ := c57_invariant_other L hL translation reflection rotation spinflip tf rf qf sf
  constructor
  · intro net h hh σ flip hm
    have k := fun s => h1 net h hh (spins s) (spins (movedConfig σ flip s)) (moved_image hm s)
    exact ⟨⟨1, fun s => by dsimp only; rw [one_mul, (k s).1]⟩, ⟨1, fun s => by dsimp only; rw [one_mul, (k s).2]⟩⟩
  · intro net h hh σ flip hm
    have k := fun s => h2 net h hh (spins s) (spins (movedConfig σ flip s)) (moved_image hm s)
    exact ⟨⟨1, fun s => by dsimp only; rw [one_mul, (k s).1]⟩, ⟨1, fun s => by dsimp only; rw [one_mul, (k s).2]⟩⟩

/-! ## C111 — measurements -/

/-- C111: with the exact sampler, `measure` returns the same mean for an operator and for the operator moved by a
symmetry of the wave function, on every rank and for every even split of the basis. With one device per rank the
variances agree, too. -/
theorem c111_measurement {N : ℕ} [NeZero N] (strs : List (List (LocalOp N 2)))
    (pfs : List ℂ) (hlen : pfs.length = strs.length) (σ : Equiv.Perm (Fin N)) (flip : Bool)
    (hb : ∀ ops ∈ strs, ∀ o ∈ ops, o.fermionic = false)
    (hd : ∀ ops ∈ strs, ∀ o ∈ ops, o.diag = true → o.map = id)
    (habove : ∀ s, AboveThreshold (branchFreeKernel strs pfs s))
    (habove' : ∀ s, AboveThreshold (branchFreeKernel (strs.map fun ops => ops.map (movedOp σ flip)) pfs s))
    (D ranks : ℕ) (hD : 0 < D) (hs : 0 < ranks) (hbig : ranks ≤ 2 ^ N)
    (hdiv : ∀ r < ranks, ∀ n g, distributeSampling ranks r (2 ^ N) none 1 = .ok (n, g) → D ∣ n)
    (lastNorm : ℝ) (logPsi : Config N 2 → ℂ) (hsym : SymmetricUnder σ flip logPsi) (zeroCfg : Config N 2) (b : ℤ) :
    ∃ ln' w res res', exactSampleWorld 2 N D ranks (toConfig N 2) (1 / 2) lastNorm logPsi = .ok (ln', w) ∧
      measureOp (branchFreeKernel strs pfs) ⟨logPsi, true⟩ zeroCfg b none w = .ok res ∧
      measureOp (branchFreeKernel (strs.map fun ops => ops.map (movedOp σ flip)) pfs) ⟨logPsi, true⟩ zeroCfg b none w
        = .ok res' ∧
      res.length = ranks ∧ res'.length = ranks ∧
      ∀ r ∈ res, ∀ r' ∈ res', r'.mean = r.mean ∧ (D = 1 → r'.variance = r.variance) := by
  obtain ⟨ln', w, h1, h2, h3, h4, h5⟩ :=
    c77_exact_sampler 2 N D ranks le_rfl hD hs hbig hdiv lastNorm logPsi
  have hb' : ∀ ops ∈ strs.map fun ops => ops.map (movedOp σ flip), ∀ o ∈ ops, o.fermionic = true → 2 = 2 :=
    fun _ _ _ _ _ => rfl
  have hd' : ∀ ops ∈ strs.map fun ops => ops.map (movedOp σ flip), ∀ o ∈ ops, o.diag = true → o.map = id := by
    intro ops hops o ho hdg
    obtain ⟨ops', ho', rfl⟩ := List.mem_map.mp hops
    obtain ⟨o', hoo, rfl⟩ := List.mem_map.mp ho
    have := hd ops' ho' o' hoo hdg
    funext a
    change flipIf flip (o'.map (flipIf flip a)) = a
    rw [this]
    exact flipIf_flipIf flip a
  have hk := operatorOf_branchFree strs pfs hlen (fun _ _ _ _ _ => rfl) hd habove
  have hk' := operatorOf_branchFree (strs.map fun ops => ops.map (movedOp σ flip)) pfs
    (by rw [List.length_map]; exact hlen) hb' hd' habove'
  obtain ⟨c, hc⟩ := hsym
  obtain ⟨he, hsp⟩ := expect_reindex (movedEquiv σ flip)
    (sumOfProducts (pfs.zip (strs.map fun ops => (ops.map opMatrix).reverse))) (fun s => Complex.exp (logPsi s)) c hc
    ⟨fun _ => 0, Complex.exp_ne_zero _⟩
  rw [← moved_sum σ flip strs pfs hb] at he hsp
  obtain ⟨res, e1, e2, e3⟩ := c77_mean hk ⟨logPsi, true⟩ rfl zeroCfg b none w h4 h5
  obtain ⟨res', e1', e2', e3'⟩ := c77_mean hk' ⟨logPsi, true⟩ rfl zeroCfg b none w h4 h5
  refine ⟨ln', w, res, res', h1, e1, e1', e2.trans h2, e2'.trans h2, fun r hr r' hr' => ⟨?_, fun hD1 => ?_⟩⟩
  · rw [e3 r hr, e3' r' hr', he]
  · have hone : ∀ rk ∈ w, List.length rk = 1 := fun rk h => (h3 rk h).trans hD1
    obtain ⟨q, f1, f2⟩ := c77_measure_partial hk ⟨logPsi, true⟩ rfl zeroCfg b w h4 hone h5
    obtain ⟨q', f1', f2'⟩ := c77_measure_partial hk' ⟨logPsi, true⟩ rfl zeroCfg b w h4 hone h5
    obtain rfl := Except.ok.inj (e1.symm.trans f1)
    obtain rfl := Except.ok.inj (e1'.symm.trans f1')
    rw [(f2 r hr).2.1, (f2' r' hr').2.1, hsp]

/-- C111, translations: a chain of `L` spins, a network symmetrised with translations and trivial factors (and any of
the other symmetries). Every operator and the operator on sites `i + k` (modulo `L`) instead of `i` are measured with
the same mean. -/
theorem c111_translation (L : ℕ) [NeZero L] (reflection spinflip : Bool) (net : (Fin L → ℤ) → ℂ)
    (logPsi : Config L 2 → ℂ)
    (hlog : let sym := getOrbit1D L true reflection spinflip 1 1 1
      ∀ s, symNet avgExp net sym.orbit sym.factor (spins s) = some (logPsi s))
    (strs : List (List (LocalOp L 2))) (pfs : List ℂ) (hlen : pfs.length = strs.length) (k : Fin L)
    (hb : ∀ ops ∈ strs, ∀ o ∈ ops, o.fermionic = false)
    (hd : ∀ ops ∈ strs, ∀ o ∈ ops, o.diag = true → o.map = id)
    (habove : ∀ s, AboveThreshold (branchFreeKernel strs pfs s))
    (habove' : ∀ s, AboveThreshold
      (branchFreeKernel (strs.map fun ops => ops.map fun o => { o with idx := o.idx + k }) pfs s))
    (D ranks : ℕ) (hD : 0 < D) (hs : 0 < ranks) (hbig : ranks ≤ 2 ^ L)
    (hdiv : ∀ r < ranks, ∀ n g, distributeSampling ranks r (2 ^ L) none 1 = .ok (n, g) → D ∣ n)
    (lastNorm : ℝ) (zeroCfg : Config L 2) (b : ℤ) :
    ∃ ln' w res res', exactSampleWorld 2 L D ranks (toConfig L 2) (1 / 2) lastNorm logPsi = .ok (ln', w) ∧
      measureOp (branchFreeKernel strs pfs) ⟨logPsi, true⟩ zeroCfg b none w = .ok res ∧
      measureOp (branchFreeKernel (strs.map fun ops => ops.map fun o => { o with idx := o.idx + k }) pfs)
        ⟨logPsi, true⟩ zeroCfg b none w = .ok res' ∧
      res.length = ranks ∧ res'.length = ranks ∧ ∀ r ∈ res, ∀ r' ∈ res', r'.mean = r.mean := by
  have hsym : SymmetricUnder (Equiv.addRight k) false logPsi := by
    refine c111_chain L (Nat.pos_of_ne_zero (NeZero.ne L)) true reflection spinflip 1 1 1 (fun _ => 1)
      (trivial_character _) (fun _ _ _ => rfl) (fun _ _ _ => rfl) (fun _ _ _ => rfl) net logPsi hlog
      (mapMatrix (shiftMap (-k)))
      (shift_mem (Submonoid.subset_closure (.inl ⟨rfl, (isShift1D_iff _).mpr rfl⟩)) (-k)) _ _ ?_
    intro s i
    rw [mapMatrix_mulVec]
    simp [shiftMap]
  have hop : (fun o : LocalOp L 2 => movedOp (Equiv.addRight k) false o) = fun o => { o with idx := o.idx + k } := by
    funext o
    rfl
  have hmap : (strs.map fun ops => ops.map (movedOp (Equiv.addRight k) false))
      = strs.map fun ops => ops.map fun o => { o with idx := o.idx + k } := by
    rw [← hop]
  obtain ⟨ln', w, res, res', h1, h2, h3, h4, h5, h6⟩ := c111_measurement strs pfs hlen (Equiv.addRight k) false hb hd
    habove (by rw [hmap]; exact habove') D ranks hD hs hbig hdiv lastNorm logPsi hsym zeroCfg b
  rw [hmap] at h3
  exact ⟨ln', w, res, res', h1, h2, h3, h4, h5, fun r hr r' hr' => (h6 r hr r' hr').1⟩

/-! ### Spin flips -/

/-- The spin operators along the three axes. -/
noncomputable def pauliOp {N : ℕ} : Fin 3 → Fin N → LocalOp N 2 := ![opSx, opSy, opSz]

/-- How many factors are along the second or third axis. -/
def oddFactors {N : ℕ} (ops : List (Fin 3 × Fin N)) : ℕ := (ops.filter fun a => a.1 ≠ 0).length

theorem pauliOp_bosonic {N : ℕ} (a : Fin 3) (i : Fin N) : (pauliOp a i).fermionic = false := by
  fin_cases a <;> rfl

theorem pauliOp_diag {N : ℕ} (a : Fin 3) (i : Fin N) : (pauliOp a i).diag = true → (pauliOp a i).map = id := by
  fin_cases a
  · intro h; cases h
  · intro h; cases h
  · intro _
    funext x
    fin_cases x <;> rfl

theorem pauli_flip {N : ℕ} (a : Fin 3) (i : Fin N) :
    opMatrix (movedOp 1 true (pauliOp a i)) = (if a ≠ 0 then (-1 : ℂ) else 1) • opMatrix (pauliOp a i) := by
  have hb := pauliOp_bosonic a i
  have hb' : (movedOp 1 true (pauliOp a i)).fermionic = false := hb
  apply Matrix.ext
  intro s s'
  rw [Matrix.smul_apply]
  unfold opMatrix
  rw [hb, hb']
  simp only [Bool.false_eq_true, if_false]
  unfold siteOperator
  have hi : (movedOp 1 true (pauliOp a i)).idx = (pauliOp a i).idx := rfl
  rw [hi, smul_eq_mul, ← mul_assoc]
  congr 1
  generalize s (pauliOp a i).idx = x
  generalize s' (pauliOp a i).idx = y
  unfold localMatrix movedOp flipIf
  fin_cases a <;> fin_cases x <;> fin_cases y <;> simp [pauliOp, opSx, opSy, opSz, arr2]

theorem pauli_prod {N : ℕ} (ops : List (Fin 3 × Fin N)) :
    ((ops.map fun a => opMatrix (movedOp 1 true (pauliOp a.1 a.2))).reverse).prod
      = (-1 : ℂ) ^ oddFactors ops • ((ops.map fun a => opMatrix (pauliOp a.1 a.2)).reverse).prod := by
  induction ops with
  | nil => simp [oddFactors]
  | cons a ops ih =>
    rw [List.map_cons, List.reverse_cons, List.prod_append, ih, List.map_cons, List.reverse_cons, List.prod_append,
      List.prod_singleton, List.prod_singleton, pauli_flip, smul_mul_smul_comm]
    congr 1
    unfold oddFactors
    rw [List.filter_cons]
    by_cases h : a.1 = 0
    · simp [h]
    · simp [h, pow_succ]

/-- C111, spin flips: if the wave function is symmetric under flipping all spins, then every sum of products of spin
operators with an odd number of factors along the second and third axis is measured as zero: with the exact sampler,
for every even split of the basis. -/
theorem c111_spinflip {N : ℕ} [NeZero N] (strs : List (List (Fin 3 × Fin N)))
    (hodd : ∀ ops ∈ strs, Odd (oddFactors ops)) (pfs : List ℂ) (hlen : pfs.length = strs.length)
    (habove : ∀ s, AboveThreshold
      (branchFreeKernel (strs.map fun ops => ops.map fun a => pauliOp a.1 a.2) pfs s))
    (D ranks : ℕ) (hD : 0 < D) (hs : 0 < ranks) (hbig : ranks ≤ 2 ^ N)
    (hdiv : ∀ r < ranks, ∀ n g, distributeSampling ranks r (2 ^ N) none 1 = .ok (n, g) → D ∣ n)
    (lastNorm : ℝ) (logPsi : Config N 2 → ℂ) (hsym : SymmetricUnder 1 true logPsi) (zeroCfg : Config N 2) (b : ℤ) :
    ∃ ln' w res, exactSampleWorld 2 N D ranks (toConfig N 2) (1 / 2) lastNorm logPsi = .ok (ln', w) ∧
      measureOp (branchFreeKernel (strs.map fun ops => ops.map fun a => pauliOp a.1 a.2) pfs) ⟨logPsi, true⟩ zeroCfg b
        none w = .ok res ∧
      res.length = ranks ∧ ∀ r ∈ res, r.mean = 0 := by
  set S := strs.map fun ops => ops.map fun a => pauliOp a.1 a.2 with hS
  have hb : ∀ ops ∈ S, ∀ o ∈ ops, o.fermionic = false := by
    intro ops hops o ho
    obtain ⟨ops', _, rfl⟩ := List.mem_map.mp hops
    obtain ⟨a, _, rfl⟩ := List.mem_map.mp ho
    exact pauliOp_bosonic a.1 a.2
  have hd : ∀ ops ∈ S, ∀ o ∈ ops, o.diag = true → o.map = id := by
    intro ops hops o ho
    obtain ⟨ops', _, rfl⟩ := List.mem_map.mp hops
    obtain ⟨a, _, rfl⟩ := List.mem_map.mp ho
    exact pauliOp_diag a.1 a.2
  obtain ⟨ln', w, res, h1, h2, h3, h4⟩ := c77_exact_measurement S pfs (by rw [hS, List.length_map]; exact hlen)
    (fun _ _ _ _ _ => rfl) hd habove D ranks le_rfl hD hs hbig hdiv lastNorm logPsi zeroCfg b
  refine ⟨ln', w, res, h1, h2, h3, fun r hr => ?_⟩
  rw [h4 r hr]
  obtain ⟨c, hc⟩ := hsym
  have he := (expect_reindex (movedEquiv 1 true)
    (sumOfProducts (pfs.zip (S.map fun ops => (ops.map opMatrix).reverse))) (fun s => Complex.exp (logPsi s)) c hc
    ⟨fun _ => 0, Complex.exp_ne_zero _⟩).1
  rw [← moved_sum 1 true S pfs hb] at he
  have hneg : ∀ (p : List ℂ) (l : List (List (Fin 3 × Fin N))), (∀ ops ∈ l, Odd (oddFactors ops)) →
      sumOfProducts (p.zip (((l.map fun ops => ops.map fun a => pauliOp a.1 a.2).map fun ops =>
        ops.map (movedOp 1 true)).map fun ops => (ops.map opMatrix).reverse))
      = -sumOfProducts (p.zip ((l.map fun ops => ops.map fun a => pauliOp a.1 a.2).map fun ops =>
        (ops.map opMatrix).reverse)) := by
    intro p
    induction p with
    | nil => intro l _; simp [sumOfProducts]
    | cons x p ih =>
      intro l hl
      cases l with
      | nil => simp [sumOfProducts]
      | cons ops l =>
        have h1 := ih l fun o ho => hl o (List.mem_cons_of_mem _ ho)
        unfold sumOfProducts at h1 ⊢
        simp only [List.map_cons, List.zip_cons_cons, List.sum_cons, h1]
        have h2 := pauli_prod ops
        rw [(hl ops List.mem_cons_self).neg_one_pow, neg_smul, one_smul] at h2
        have h5 : (((ops.map fun a => pauliOp a.1 a.2).map (movedOp 1 true)).map opMatrix).reverse.prod
            = -((ops.map fun a => pauliOp a.1 a.2).map opMatrix).reverse.prod := by
          simp only [List.map_map]
          exact h2
        rw [h5, smul_neg, neg_add]
  rw [hS, hneg pfs strs hodd, ← hS] at he
  have h5 : ∀ (O : Matrix (Config N 2) (Config N 2) ℂ) (ψ : Config N 2 → ℂ), expect (-O) ψ = -expect O ψ := by
    intro O ψ
    unfold expect
    simp only [neg_mulVec, Pi.neg_apply, mul_neg, Finset.sum_neg_distrib, neg_div]
  rw [h5] at he
  have : expect (sumOfProducts (pfs.zip (S.map fun ops => (ops.map opMatrix).reverse)))
      (fun s => Complex.exp (logPsi s)) = 0 := by
    linear_combination (-(1 : ℂ) / 2) * he
  rw [this, Complex.zero_re]

/-- C111: networks symmetrised with spin flips are symmetric in this sense, on chains and square lattices. -/
theorem c111_flipped (L : ℕ) (hL : 0 < L) (translation reflection rotation : Bool) :
    (∀ (net : (Fin L → ℤ) → ℂ) (logPsi : Config L 2 → ℂ),
      (let sym := getOrbit1D L translation reflection true 1 1 1
        ∀ s, symNet avgExp net sym.orbit sym.factor (spins s) = some (logPsi s)) → SymmetricUnder 1 true logPsi) ∧
    (∀ (net : (Fin (L * L) → ℤ) → ℂ) (logPsi : Config (L * L) 2 → ℂ),
      (let sym := getOrbit2D L translation reflection rotation true 1 1 1 1
        ∀ s, symNet avgExp net sym.orbit sym.factor (spins s) = some (logPsi s)) → SymmetricUnder 1 true logPsi) := by
  constructor
  · intro net logPsi hlog
    refine c111_chain L hL translation reflection true 1 1 1 (fun _ => 1)
      (trivial_character _) (fun _ _ _ => rfl) (fun _ _ _ => rfl) (fun _ _ _ => rfl) net logPsi hlog (-1)
      (Submonoid.subset_closure (.inr (.inr ⟨rfl, (spinflip_iff _).mpr rfl⟩))) _ _ ?_
    intro s i
    simp [neg_mulVec]
  · intro net logPsi hlog
    refine c111_square L hL translation reflection rotation true 1 1 1 1 (fun _ => 1)
      (trivial_character _) (fun _ _ _ => rfl) (fun _ _ _ => rfl) (fun _ _ _ => rfl) (fun _ _ _ => rfl) net logPsi hlog
      (-1) (Submonoid.subset_closure (.inr (.inr (.inr ⟨rfl, (spinflip_iff _).mpr rfl⟩)))) _ _ ?_
    intro s i
    simp [neg_mulVec]

/-! ## The hypotheses are met -/

/-- Networks with real output have non-zero amplitudes after symmetrisation with trivial factors. -/
theorem symNet_positive {n : ℕ} {gens : Set (Matrix (Fin n) (Fin n) ℤ)} {os : List (Matrix (Fin n) (Fin n) ℤ)}
    (hg : IsGroupList gens os) (net : (Fin n → ℤ) → ℝ) (s : Fin n → ℤ) :
    ∃ z, symNet avgExp (fun x => (net x : ℂ)) os (os.map fun _ => 1) s = some z := by
  cases h : symNet avgExp (fun x => (net x : ℂ)) os (os.map fun _ => 1) s with
  | some z => exact ⟨z, rfl⟩
  | none =>
    exfalso
    have h1 := symNet_amp (fun x => (net x : ℂ)) os (fun _ => 1) s
    rw [h] at h1
    have h2 : (os.map fun g => (1 : ℂ) * Complex.exp (net (imageOf g s) : ℂ)).sum
        = (((os.map fun g => Real.exp (net (imageOf g s))).sum : ℝ) : ℂ) := by
      clear h h1 hg
      induction os with
      | nil => simp
      | cons g os ih =>
        simp only [List.map_cons, List.sum_cons, one_mul, Complex.ofReal_add, Complex.ofReal_exp] at ih ⊢
        rw [ih]
    rw [h2] at h1
    have h3 : (0 : ℝ) = (os.map fun g => Real.exp (net (imageOf g s))).sum := Complex.ofReal_injective (by
      rw [← h1]; simp [LogVal.amp])
    have h4 : 0 < (os.map fun g => Real.exp (net (imageOf g s))).sum :=
      List.sum_pos _ (fun x hx => by
        obtain ⟨g, _, rfl⟩ := List.mem_map.mp hx
        exact Real.exp_pos _) (by
        intro hnil
        have := hg.one
        rw [List.map_eq_nil_iff.mp hnil] at this
        exact List.not_mem_nil this)
    linarith

theorem single_above {N : ℕ} [NeZero N] (o : LocalOp N 2) (hb : o.fermionic = false) (c : ℂ)
    (h : ∀ a, c * o.matEls a = 0 ∨ (1e-6 : ℝ) < ‖c * o.matEls a‖) (s : Config N 2) :
    AboveThreshold (branchFreeKernel [[o]] [c] s) := by
  intro e he
  have hl : maxOpStrLength ([[o]] : List (List (LocalOp N 2))) = 1 := rfl
  have hc : compileStr 1 ([o] : List (LocalOp N 2)) = [o] := rfl
  have hm : ∀ x, mergeDiag (diagIndices ([[o]] : List (List (LocalOp N 2)))) [x] = [x] := by
    intro x
    unfold diagIndices
    cases hd : o.diag <;> simp [hd, mergeDiag]
  simp only [branchFreeKernel, kernelMasked, rawSPrimes, hl, List.zipWith_cons_cons, List.zipWith_nil_right, hc,
    List.foldl_cons, List.foldl_nil, applyFun, hb, fermiFactor_bosonic, List.map_cons, List.map_nil, hm,
    List.zip_cons_cons, List.zip_nil_right, List.mem_singleton, Int.cast_one, mul_one] at he
  rw [he]
  exact h _

/-- Three spins, a network that depends on the first spin only before symmetrisation, reflections and spin flips in
addition; `3 Sx(0)` and `3 Sx(2)` on two ranks. -/
example : ∃ logPsi : Config 3 2 → ℂ, ∃ ln' w res res',
    exactSampleWorld 2 3 1 2 (toConfig 3 2) (1 / 2) 0 logPsi = .ok (ln', w) ∧
      measureOp (branchFreeKernel [[opSx 0]] [3]) ⟨logPsi, true⟩ (fun _ => 0) 2 none w = .ok res ∧
      measureOp (branchFreeKernel [[opSx 2]] [3]) ⟨logPsi, true⟩ (fun _ => 0) 2 none w = .ok res' ∧
      res.length = 2 ∧ res'.length = 2 ∧ ∀ r ∈ res, ∀ r' ∈ res', r'.mean = r.mean := by
  have hg := group1D 3 true true true 1 1 1
  choose logPsi hlog using fun s : Config 3 2 => symNet_positive hg (fun s => (s 0 : ℝ)) (spins s)
  have hx : ∀ i : Fin 3, ∀ s : Config 3 2, AboveThreshold (branchFreeKernel [[opSx i]] [3] s) := fun i s =>
    single_above (opSx i) rfl 3 (fun a => .inr (by fin_cases a <;> norm_num [opSx, arr2])) s
  refine ⟨logPsi, c111_translation 3 true true (fun s => (s 0 : ℂ)) logPsi ?_ [[opSx 0]] [3] rfl 2 (by simp [opSx])
    (by simp [opSx]) (hx 0) (hx 2) 1 2 one_pos two_pos (by norm_num) (fun _ _ n _ _ => one_dvd n) 0 _ 2⟩
  dsimp only
  rw [factor1D 3 true true true 1 1 1 (fun _ => 1) (trivial_character _) (fun _ _ _ => rfl)
    (fun _ _ _ => rfl) (fun _ _ _ => rfl)]
  intro s
  have := hlog s
  simpa using this

/-- The magnetisation of the second of three spins is measured as zero. -/
example : ∃ logPsi : Config 3 2 → ℂ, ∃ ln' w res,
    exactSampleWorld 2 3 1 2 (toConfig 3 2) (1 / 2) 0 logPsi = .ok (ln', w) ∧
      measureOp (branchFreeKernel [[opSz 1]] [1]) ⟨logPsi, true⟩ (fun _ => 0) 2 none w = .ok res ∧
      res.length = 2 ∧ ∀ r ∈ res, r.mean = 0 := by
  have hg := group1D 3 false false true 1 1 1
  choose logPsi hlog using fun s : Config 3 2 => symNet_positive hg (fun s => (s 0 : ℝ)) (spins s)
  have hsym := (c111_flipped 3 (by norm_num) false false false).1 (fun s => (s 0 : ℂ)) logPsi (by
    dsimp only
    rw [factor1D 3 false false true 1 1 1 (fun _ => 1) (trivial_character _) (fun _ _ _ => rfl)
      (fun _ _ _ => rfl) (fun _ _ _ => rfl)]
    intro s
    have := hlog s
    simpa using this)
  have hz : ∀ s : Config 3 2, AboveThreshold (branchFreeKernel [[opSz 1]] [1] s) := fun s =>
    single_above (opSz 1) rfl 1 (fun a => .inr (by fin_cases a <;> norm_num [opSz, arr2])) s
  exact ⟨logPsi, c111_spinflip [[(2, 1)]] (by simp [oddFactors]) [1] rfl hz
    1 2 one_pos two_pos (by norm_num) (fun _ _ n _ _ => one_dvd n) 0 logPsi hsym _ 2⟩

/-- The group elements of a square lattice. -/
example : ∃ σ flip, MovesSpins (mapMatrix (lift2 rot1) : Matrix (Fin (2 * 2)) (Fin (2 * 2)) ℤ) σ flip :=
  (c111_moves 2 (by norm_num) false false true false).2 _
    (Submonoid.subset_closure (.inr (.inr (.inl ⟨rfl, (isRotation_iff _).mpr rfl⟩))))

end JVMC
