import Verif.Lemmas.Nodes
import Verif.Props.SymMeasure

/-!
# Wave functions with zeros (C119)

`(logPsi c).amp` is the amplitude `ψ(c)`: zero if `log ψ(c)` is minus infinity. The specification of Born weights and
expectation values is that of `Spec/Variational`.
-/

namespace JVMC

open Spec Matrix

/-! ## Which wave functions have zeros -/

theorem amp_eq_zero (z : LogVal) : z.amp = 0 ↔ z = none := by
  cases z with
  | none => simp [LogVal.amp]
  | some z => simp [LogVal.amp, Complex.exp_ne_zero]

/-- C119: a symmetrised network in a non-trivial representation vanishes on every configuration that is left unchanged
by a symmetry whose factor is not one: on chains and square lattices, for every inner network. -/
theorem c119_symmetric_zeros (L : ℕ) (hL : 0 < L) (translation reflection rotation spinflip : Bool)
    (tf rf qf sf : ℂ) :
    (∀ (χ : Matrix (Fin L) (Fin L) ℤ → ℂ), IsCharacter (gens1D L translation reflection spinflip) χ →
      (translation = true → ∀ M, IsShift1D M → χ M = tf) → (reflection = true → ∀ M, IsReflection1D M → χ M = rf) →
      (spinflip = true → ∀ M, IsSpinflip M → χ M = sf) → ∀ (net : (Fin L → ℤ) → ℂ),
      ∀ h ∈ Submonoid.closure (gens1D L translation reflection spinflip), χ h ≠ 1 → ∀ s, IsImage h s s →
      let sym := getOrbit1D L translation reflection spinflip tf rf sf
      symNet avgExp net sym.orbit sym.factor s = none) ∧
    (∀ (χ : Matrix (Fin (L * L)) (Fin (L * L)) ℤ → ℂ),
      IsCharacter (gens2D L translation reflection rotation spinflip) χ →
      (translation = true → ∀ M, IsShiftRows M ∨ IsShiftCols M → χ M = tf) →
      (reflection = true → ∀ M, IsFlipRows M ∨ IsFlipCols M → χ M = rf) →
      (rotation = true → ∀ M, IsRotation M → χ M = qf) →
      (spinflip = true → ∀ M, IsSpinflip M → χ M = sf) → ∀ (net : (Fin (L * L) → ℤ) → ℂ),
      ∀ h ∈ Submonoid.closure (gens2D L translation reflection rotation spinflip), χ h ≠ 1 → ∀ s, IsImage h s s →
      let sym := getOrbit2D L translation reflection rotation spinflip tf rf qf sf
      symNet avgExp net sym.orbit sym.factor s = none) := by
  have key : ∀ (c : ℂ) (z : LogVal), c ≠ 1 → c * z.amp = z.amp → z = none := by
    intro c z hc h
    rw [← amp_eq_zero]
    by_contra hz
    exact hc (mul_right_cancel₀ hz (h.trans (one_mul _).symm))
  constructor
  · intro χ hχ ht hr hsf net h hh h1 s hs
    exact key _ _ h1 (c57_character_1d_partial L hL translation reflection spinflip tf rf sf χ hχ ht hr hsf net h hh s s hs)
  · intro χ hχ ht hr hq hsf net h hh h1 s hs
    exact key _ _ h1 (c57_character_2d_partial L hL translation reflection rotation spinflip tf rf qf sf χ hχ ht hr hq
      hsf net h hh s s hs)

theorem rev_mul_rev (L : ℕ) :
    mapMatrix (Fin.rev : Fin L → Fin L) * mapMatrix (Fin.rev : Fin L → Fin L) = 1 := by
  ext i j
  simp only [Matrix.mul_apply, mapMatrix, Matrix.one_apply]
  rw [Finset.sum_eq_single i.rev]
  · simp [Fin.rev_rev]
  · intro b _ hb
    rw [if_neg (Ne.symm hb), zero_mul]
  · simp

theorem rev_ne_one (L : ℕ) (hL : 2 ≤ L) : mapMatrix (Fin.rev : Fin L → Fin L) ≠ 1 := by
  intro h
  have := congrFun (congrFun h ⟨0, by omega⟩) ⟨0, by omega⟩
  simp [mapMatrix, Fin.ext_iff, Fin.val_rev] at this
  omega

/-- Reflections with the factor `-1`. -/
noncomputable def oddCharacter {L : ℕ} (M : Matrix (Fin L) (Fin L) ℤ) : ℂ := open Classical in if M = 1 then 1 else -1

theorem oddCharacter_is (L : ℕ) (hL : 2 ≤ L) : IsCharacter (gens1D L false true false) (oddCharacter (L := L)) := by
  have hg : ∀ M ∈ Submonoid.closure (gens1D L false true false), M = 1 ∨ M = mapMatrix Fin.rev := by
    intro M hM
    induction hM using Submonoid.closure_induction with
    | mem x hx =>
      simp only [gens1D, Set.mem_ofPred_eq, isReflection1D_iff] at hx
      simp at hx
      exact .inr hx
    | one => exact .inl rfl
    | mul x y _ _ hx hy =>
      rcases hx with rfl | rfl <;> rcases hy with rfl | rfl
      · left; simp
      · right; simp
      · right; simp
      · left; exact rev_mul_rev L
  refine ⟨by simp [oddCharacter], fun M hM N hN => ?_⟩
  have hne := rev_ne_one L hL
  rcases hg M hM with rfl | rfl <;> rcases hg N hN with rfl | rfl
  · simp [oddCharacter]
  · simp [oddCharacter, hne]
  · simp [oddCharacter, hne]
  · rw [rev_mul_rev]
    simp [oddCharacter, hne]

/-- C119: a chain that is odd under reflection, `get_orbit_1D(L, "reflection", reflection_factor=-1)`: the amplitude of
every palindrome is zero, in particular that of the configuration all chains of a sampler start with. -/
theorem c119_odd_chain (L : ℕ) (hL : 2 ≤ L) (tf sf : ℂ) (net : (Fin L → ℤ) → ℂ) (s : Fin L → ℤ)
    (hs : ∀ i, s i.rev = s i) :
    let sym := getOrbit1D L false true false tf (-1) sf
    symNet avgExp net sym.orbit sym.factor s = none := by
  refine (c119_symmetric_zeros L (by omega) false true false false tf (-1) 1 sf).1 oddCharacter (oddCharacter_is L hL)
    (by simp) (fun _ M hM => ?_) (by simp) net (mapMatrix Fin.rev)
    (Submonoid.subset_closure (.inr (.inl ⟨rfl, (isReflection1D_iff _).mpr rfl⟩))) ?_ s ?_
  · rw [isReflection1D_iff] at hM
    rw [hM, oddCharacter, if_neg (rev_ne_one L hL)]
  · rw [oddCharacter, if_neg (rev_ne_one L hL)]
    norm_num
  · intro i
    rw [Finset.sum_eq_single i.rev]
    · simp [mapMatrix, hs]
    · intro b _ hb
      simp [mapMatrix, Ne.symm hb]
    · simp

example (net : (Fin 4 → ℤ) → ℂ) := c119_odd_chain 4 (by norm_num) 1 1 net ![1, 0, 0, 1] (by decide)
example (net : (Fin 4 → ℤ) → ℂ) := c119_odd_chain 4 (by norm_num) 1 1 net (fun _ => 0) (fun _ => rfl)

/-! ## Exact sampling -/

/-- The weighted configurations of a sample. -/
def weightedN {S : Type} (w : World (S × LogVal × ℝ)) : List (ℝ × S) := (allSamples w).map fun x => (x.2.2, x.1)

/-- As `SamplesOf`. -/
structure SamplesOfN {S : Type} (logPsi : S → LogVal) (w : World (S × LogVal × ℝ)) : Prop where
  devices : ∀ rk ∈ w, rk ≠ []
  nonempty : ∀ rk ∈ w, ∀ dev ∈ rk, dev ≠ []
  amplitudes : ∀ x ∈ allSamples w, x.2.1 = logPsi x.1

theorem unnormalisedN_eq (ln : ℝ) (e : Bool × LogVal) :
    exactUnnormalisedN (1 / 2) ln e = Real.exp (-(2 * ln)) * (if e.1 then Complex.normSq e.2.amp else 0) := by
  obtain ⟨b, z⟩ := e
  cases z with
  | none => simp [exactUnnormalisedN, LogVal.amp]
  | some z =>
    unfold exactUnnormalisedN exactUnnormalised LogVal.amp
    dsimp only
    split
    · rw [Complex.normSq_eq_norm_sq, Complex.norm_exp, sq, ← Real.exp_add, ← Real.exp_add]
      congr 1
      simp
      ring
    · simp

/-- C119: the exact sampler returns every configuration with its Born probability, whatever was sampled before, for
every wave function that does not vanish everywhere (and even splits of the basis as in C77); configurations on which
the wave function vanishes have weight zero. -/
theorem c119_exact_sampler (d N D s : ℕ) [NeZero d] (hl : 2 ≤ d) (hD : 0 < D) (hs : 0 < s) (hbig : s ≤ d ^ N)
    (hdiv : ∀ r < s, ∀ n g, distributeSampling s r (d ^ N) none 1 = .ok (n, g) → D ∣ n)
    (lastNorm : ℝ) (logPsi : (Fin N → Fin d) → LogVal) (hψ : ∃ c, logPsi c ≠ none) :
    ∃ ln' w, exactSampleWorldN d N D s (toConfig N d) (1 / 2) lastNorm logPsi = .ok (ln', w) ∧
      List.length w = s ∧ (∀ rk ∈ w, rk.length = D) ∧ SamplesOfN logPsi w ∧
      (∀ c, ∃ x ∈ allSamples w, x.1 = c) ∧ BornWeights (fun c => (logPsi c).amp) (weightedN w) := by
  obtain ⟨W, basis, hW, hb, hlen, hdev, hfull, hkept⟩ := exactBasisWorld_eq d N D s hs
  obtain ⟨basis', hb', hnd, hcount, hcov⟩ := c09_exactly_once_divisible d N D s hl hD hs hdiv
  obtain rfl := Except.ok.inj (hb.symm.trans hb')
  have hdn : (basis.map (toConfig N d)).Nodup := by
    apply List.Nodup.map_on _ hnd
    intro x hx y hy h
    exact toConfig_inj N d x y ((hcov x).1 hx) ((hcov y).1 hy) h
  have hall : ∀ c, c ∈ basis.map (toConfig N d) := by
    intro c
    obtain ⟨l, hl, rfl⟩ := toConfig_surj N d c
    exact List.mem_map.mpr ⟨l, (hcov l).2 hl, rfl⟩
  set ψ : (Fin N → Fin d) → ℂ := fun c => (logPsi c).amp with hψdef
  have hWne : ∀ r ∈ W, r ≠ [] := by
    intro r hr he
    have := hdev r hr
    rw [he] at this
    simp at this
    omega
  have hZ : ((allSamples W).map fun e => if e.1 then Complex.normSq (ψ (toConfig N d e.2)) else 0).sum = norm2 ψ := by
    have h1 := List.sum_toFinset (fun c => Complex.normSq (ψ c)) hdn
    rw [show (basis.map (toConfig N d)).toFinset = Finset.univ from
      Finset.eq_univ_iff_forall.2 fun c => List.mem_toFinset.2 (hall c)] at h1
    unfold norm2
    rw [h1, ← hkept]
    induction allSamples W with
    | nil => simp
    | cons e l ih =>
      rw [List.map_cons, List.sum_cons, ih, List.filter_cons]
      cases e.1 <;> simp
  have hpos : 0 < norm2 ψ := by
    obtain ⟨c, hc⟩ := hψ
    exact norm2_pos ψ c fun h => hc ((amp_eq_zero _).1 h)
  have hexp := Real.exp_pos (-(2 * lastNorm))
  have hgs : globalSum (World.map (exactUnnormalisedN (1 / 2) lastNorm) (World.map (fun e =>
      (e.1, logPsi (toConfig N d e.2))) W)) = .ok (List.map (fun _ => Real.exp (-(2 * lastNorm)) * norm2 ψ) W) := by
    have h1 : World.map (exactUnnormalisedN (1 / 2) lastNorm) (World.map (fun e => (e.1, logPsi (toConfig N d e.2))) W)
        = World.map (fun e => Real.exp (-(2 * lastNorm)) * (if e.1 then Complex.normSq (ψ (toConfig N d e.2)) else 0))
          W := by
      unfold World.map
      simp only [List.map_map, Function.comp_def, unnormalisedN_eq, hψdef]
    rw [h1, globalSum_wmap W _ hWne, List.sum_map_mul_left, hZ]
  have hWc : W ≠ [] := by
    rintro rfl
    simp at hlen
    omega
  have hsample : exactSampleN (1 / 2) lastNorm (World.map (fun e => (e.1, logPsi (toConfig N d e.2))) W)
      = .ok (lastNorm + 1 / 2 * Real.log (Real.exp (-(2 * lastNorm)) * norm2 ψ),
        World.map (fun e => (if e.1 then Complex.normSq (ψ (toConfig N d e.2)) / norm2 ψ else 0)) W) := by
    unfold exactSampleN
    change Except.bind (globalSum (World.map (exactUnnormalisedN (1 / 2) lastNorm) (World.map (fun e =>
      (e.1, logPsi (toConfig N d e.2))) W))) _ = _
    rw [hgs]
    obtain ⟨rk, rks, rfl⟩ := List.exists_cons_of_ne_nil hWc
    change (if Real.exp (-(2 * lastNorm)) * norm2 ψ = 0 then _ else _) = _
    rw [if_neg (mul_pos hexp hpos).ne']
    change Except.ok _ = Except.ok _
    congr 2
    unfold World.map
    simp only [List.map_map, Function.comp_def, unnormalisedN_eq]
    apply List.map_congr_left; intro rk _
    apply List.map_congr_left; intro dev _
    apply List.map_congr_left; intro e _
    rw [mul_div_mul_left _ _ hexp.ne', ite_div, zero_div]
  refine ⟨lastNorm + 1 / 2 * Real.log (Real.exp (-(2 * lastNorm)) * norm2 ψ), World.map (fun e => (toConfig N d e.2, logPsi (toConfig N d e.2),
      if e.1 then Complex.normSq (ψ (toConfig N d e.2)) / norm2 ψ else 0)) W, ?_, by simpa [World.map] using hlen, ?_,
      ⟨?_, ?_, ?_⟩, ?_, ?_⟩
  · unfold exactSampleWorldN
    rw [hW]
    change Except.bind (exactSampleN (1 / 2) lastNorm (World.map (fun e => (e.1, logPsi (toConfig N d e.2))) W)) _ = _
    rw [hsample]
    change Except.ok _ = Except.ok _
    congr 2
    unfold World.map
    simp only [List.zipWith_map_right, List.zipWith_self]
  · intro rk hrk
    obtain ⟨rk', h', rfl⟩ := List.mem_map.mp hrk
    rw [List.length_map]
    exact hdev rk' h'
  · exact World.map_ne _ _ hWne
  · intro rk hrk dev hd
    obtain ⟨rk', h', rfl⟩ := List.mem_map.mp hrk
    obtain ⟨dev', h'', rfl⟩ := List.mem_map.mp hd
    simpa using hfull hD hbig rk' h' dev' h''
  · intro x hx
    rw [allSamples_wmap] at hx
    obtain ⟨e, _, rfl⟩ := List.mem_map.mp hx
    rfl
  · intro c
    have := hall c
    rw [← hkept, List.map_map] at this
    obtain ⟨e, he, rfl⟩ := List.mem_map.mp this
    rw [allSamples_wmap]
    exact ⟨_, List.mem_map.mpr ⟨e, (List.mem_filter.mp he).1, rfl⟩, rfl⟩
  · have hwt : weightedN (World.map (fun e => (toConfig N d e.2, logPsi (toConfig N d e.2),
        if e.1 then Complex.normSq (ψ (toConfig N d e.2)) / norm2 ψ else 0)) W)
        = (allSamples W).map fun e => ((if e.1 then (fun c => Complex.normSq (ψ c) / norm2 ψ) (toConfig N d e.2) else 0),
          toConfig N d e.2) := by
      unfold weightedN
      rw [allSamples_wmap, List.map_map]
      rfl
    rw [hwt]
    constructor
    · intro x hx
      obtain ⟨e, _, rfl⟩ := List.mem_map.mp hx
      dsimp only
      split
      · exact div_nonneg (Complex.normSq_nonneg _) hpos.le
      · exact le_rfl
    · intro c
      refine (weight_kept (allSamples W) (toConfig N d) (fun c => Complex.normSq (ψ c) / norm2 ψ) c).trans ?_
      rw [hkept, List.count_eq_one_of_mem hdn (hall c)]
      simp

/-! ## Measurements -/

section

variable {C : Type} [Fintype C] [DecidableEq C] {kernel : C → List (C × ℂ)} {O : Matrix C C ℂ}

theorem nodeValue_local (hk : OperatorOf kernel O) (logPsi : C → LogVal) (s : C) (y : ℂ) (hy : logPsi s = some y)
    (v : Flt ℂ) (h : NodeValue kernel logPsi s (logPsi s) v) :
    v = some (localValue O (fun c => (logPsi c).amp) s) := by
  rw [h.1 y hy]
  congr 1
  have hf : (((kernel s).filter fun e => isNonzero e.2).map fun e => e.2 * ((logPsi e.1).amp / Complex.exp y)).sum
      = ((kernel s).map fun e => e.2 * ((logPsi e.1).amp / Complex.exp y)).sum := by
    have := hk.above s
    generalize kernel s = row at this
    induction row with
    | nil => rfl
    | cons e row ih =>
      have ih' := ih fun e he => this e (List.mem_cons_of_mem _ he)
      rw [List.filter_cons]
      split
      · rw [List.map_cons, List.sum_cons, ih', List.map_cons, List.sum_cons]
      · rename_i hz
        have h0 : e.2 = 0 := by
          by_contra hne
          have := (this e (by simp)).resolve_left hne
          apply hz
          unfold isNonzero
          simpa using this
        rw [ih', List.map_cons, List.sum_cons, h0, zero_mul, zero_add]
  rw [hf]
  have h := applyTo_elementOf (kernel s) fun c => (logPsi c).amp / Complex.exp y
  unfold applyTo at h
  rw [h]
  unfold localValue mulVec dotProduct
  rw [Finset.sum_div]
  apply Finset.sum_congr rfl
  intro s' _
  dsimp only
  rw [hk.elements s s', hy, mul_div_assoc]
  rfl

omit [Fintype C] [DecidableEq C] in
/-- All values are known: on each device, sample by sample. -/
theorem oLocWorldN_ok (numOps : ℕ) (hops : ∀ s, (kernel s).length = numOps) (logPsi : C → LogVal) (zeroCfg : C)
    (b : ℤ) (w : World (C × LogVal × ℝ)) (hw : SamplesOfN logPsi w) :
    ∃ o, oLocWorldN kernel logPsi zeroCfg b w = .ok o ∧
      List.Forall₂ (List.Forall₂ (List.Forall₂ fun (x : C × LogVal × ℝ) (v : ℝ × Flt ℂ) =>
        v.1 = x.2.2 ∧ NodeValue kernel logPsi x.1 (logPsi x.1) v.2)) w o := by
  have hdev : ∀ rk ∈ w, ∀ dev ∈ rk, ∃ o, (match getOLocN kernel logPsi zeroCfg b (dev.map fun x => x.1)
      (dev.map fun x => x.2.1) with
      | none => (.error .typeError : Except PyErr (List (ℝ × Flt ℂ)))
      | some o => .ok (List.zipWith (fun (x : C × LogVal × ℝ) v => (x.2.2, v)) dev o)) = .ok o ∧
      List.Forall₂ (fun (x : C × LogVal × ℝ) (v : ℝ × Flt ℂ) => v.1 = x.2.2 ∧ NodeValue kernel logPsi x.1 (logPsi x.1) v.2) dev o := by
    intro rk hrk dev hd
    have hne := hw.nonempty rk hrk dev hd
    obtain ⟨o, h1, h2, h3⟩ := getOLocN_get kernel logPsi numOps hops zeroCfg b (dev.map fun x => x.1)
      (by simpa using hne) (dev.map fun x => x.2.1) (by simp)
    rw [List.length_map] at h2
    rw [h1]
    refine ⟨_, rfl, List.forall₂_iff_get.2 ⟨by simp [h2], fun k k1 k2 => ?_⟩⟩
    have e1 : (dev.map fun x => x.1)[k]? = some dev[k].1 := by
      rw [List.getElem?_map, List.getElem?_eq_getElem k1]; rfl
    have e2 : (dev.map fun x => x.2.1)[k]? = some dev[k].2.1 := by
      rw [List.getElem?_map, List.getElem?_eq_getElem k1]; rfl
    obtain ⟨v, e3, e4⟩ := h3 k _ _ e1 e2
    have hamp : dev[k].2.1 = logPsi dev[k].1 := hw.amplitudes _ (List.mem_flatten.2
      ⟨dev, List.mem_flatten.2 ⟨rk, hrk, hd⟩, List.getElem_mem k1⟩)
    rw [hamp] at e4
    obtain ⟨k3, rfl⟩ := List.getElem?_eq_some_iff.1 e3
    simp only [List.get_eq_getElem, List.getElem_zipWith]
    exact ⟨trivial, e4⟩
  have hex : ∀ {A B : Type} (f : A → Except PyErr B) (R : A → B → Prop) (l : List A),
      (∀ a ∈ l, ∃ v, f a = .ok v ∧ R a v) → ∃ v, l.mapM f = .ok v ∧ List.Forall₂ R l v := by
    intro A B f R l
    induction l with
    | nil => intro _; exact ⟨[], rfl, .nil⟩
    | cons a l ih =>
      intro h
      obtain ⟨v, h1, h2⟩ := h a (by simp)
      obtain ⟨vs, h3, h4⟩ := ih fun a ha => h a (by simp [ha])
      refine ⟨v :: vs, ?_, .cons h2 h4⟩
      rw [List.mapM_cons, h1, h3]
      rfl
  exact hex _ _ w fun rk hrk => hex _ _ rk fun dev hd => hdev rk hrk dev hd

theorem forall₂_mem_left {A B : Type} {R : A → B → Prop} {l : List A} {l' : List B} (h : List.Forall₂ R l l') {a : A}
    (ha : a ∈ l) : ∃ b ∈ l', R a b := by
  induction h with
  | nil => simp at ha
  | cons h1 _ ih =>
    rcases List.mem_cons.1 ha with rfl | ha
    · exact ⟨_, by simp, h1⟩
    · obtain ⟨b, hb, r⟩ := ih ha
      exact ⟨b, by simp [hb], r⟩

omit [Fintype C] [DecidableEq C] in
/-- C119: if a wave function vanishes on a sampled configuration (even one with weight zero) on which the operator has a
matrix element above the threshold, then `measure` reports numbers that are infinite or NaN, on every rank and for
every batch size. -/
theorem c119_node_sampled (numOps : ℕ) (hops : ∀ s, (kernel s).length = numOps) (logPsi : C → LogVal) (zeroCfg : C)
    (b : ℤ) (n : Option ℕ) (w : World (C × LogVal × ℝ)) (hw : SamplesOfN logPsi w)
    (hnode : ∃ x ∈ allSamples w, logPsi x.1 = none ∧ ∃ e ∈ kernel x.1, 1e-6 < ‖e.2‖) :
    ∃ res, measureOpN kernel logPsi zeroCfg b n w = .ok res ∧ res.length = List.length w ∧ ∀ r ∈ res, r = none := by
  obtain ⟨o, h1, h2⟩ := oLocWorldN_ok numOps hops logPsi zeroCfg b w hw
  have hfin : World.finite o = none := by
    obtain ⟨x, hx, hz, e, he, hn⟩ := hnode
    obtain ⟨dev, hd, hx⟩ := List.mem_flatten.1 hx
    obtain ⟨rk, hrk, hd⟩ := List.mem_flatten.1 hd
    obtain ⟨rk', hrk', r1⟩ := forall₂_mem_left h2 hrk
    obtain ⟨dev', hd', r2⟩ := forall₂_mem_left r1 hd
    obtain ⟨v, hv, _, r3⟩ := forall₂_mem_left r2 hx
    have hvn : v.2 = none := r3.2 hz ⟨e, he, by unfold isNonzero; simpa using hn⟩
    unfold World.finite
    refine mapM_none_of _ _ ⟨rk', hrk', mapM_none_of _ _ ⟨dev', hd', mapM_none_of _ _ ⟨v, hv, ?_⟩⟩⟩
    rw [hvn]
    rfl
  refine ⟨List.map (fun _ => none) o, ?_, by simp [h2.length_eq], by simp⟩
  unfold measureOpN
  rw [h1]
  change (match World.finite o with
    | none => _
    | some w => _ : Except PyErr (List (Flt MeasResult))) = _
  rw [hfin]
  rfl

/-- C119: on samples on which the wave function does not vanish, `measure` finds the local estimators
`(Oψ)(s) / ψ(s)`, although `ψ` may vanish on configurations the operator connects them to. -/
theorem oLocWorldN_local (hk : OperatorOf kernel O) (logPsi : C → LogVal) (zeroCfg : C) (b : ℤ)
    (w : World (C × LogVal × ℝ)) (hw : SamplesOfN logPsi w) (hnz : ∀ x ∈ allSamples w, logPsi x.1 ≠ none) :
    oLocWorldN kernel logPsi zeroCfg b w = .ok (World.map (fun x =>
      (x.2.2, some (localValue O (fun c => (logPsi c).amp) x.1))) w) := by
  obtain ⟨numOps, hops⟩ := hk.shape
  obtain ⟨o, h1, h2⟩ := oLocWorldN_ok numOps hops logPsi zeroCfg b w hw
  rw [h1]
  congr 1
  have hmap : ∀ {A B : Type} (R : A → B → Prop) (g : A → B) {l : List A} {l' : List B}, List.Forall₂ R l l' →
      (∀ a ∈ l, ∀ b, R a b → b = g a) → l' = l.map g := by
    intro A B R g l l' h
    induction h with
    | nil => intro _; rfl
    | cons h1 _ ih =>
      intro h
      rw [List.map_cons, ← ih fun a ha => h a (by simp [ha]), h _ (by simp) _ h1]
  refine hmap _ _ h2 fun rk hrk rk' r1 => hmap _ _ r1 fun dev hd dev' r2 => hmap _ _ r2 fun x hx v r3 => ?_
  have hz := hnz x (List.mem_flatten.2 ⟨dev, List.mem_flatten.2 ⟨rk, hrk, hd⟩, hx⟩)
  obtain ⟨y, hy⟩ := Option.ne_none_iff_exists'.1 hz
  have := nodeValue_local hk logPsi x.1 y hy v.2 r3.2
  exact Prod.ext r3.1 this

theorem mapM_map_some {A B : Type} (f : B → Option A) (g : A → B) (l : List A) (h : ∀ a ∈ l, f (g a) = some a) :
    (l.map g).mapM f = some l := by
  induction l with
  | nil => rfl
  | cons a l ih =>
    rw [List.map_cons, List.mapM_cons, h a (by simp), ih fun b hb => h b (by simp [hb])]
    rfl

theorem finite_map {A : Type} (w : World (ℝ × A)) : World.finite (World.map (fun x => (x.1, some x.2)) w) = some w :=
  mapM_map_some _ _ w fun rk _ => mapM_map_some _ _ rk fun dev _ => mapM_map_some _ _ dev fun _ _ => rfl

omit [DecidableEq C] in
theorem born_mean_zeros (O : Matrix C C ℂ) (ψ : C → ℂ) :
    ∑ s, ((Complex.normSq (ψ s) / norm2 ψ : ℝ) : ℂ) * localValue O ψ s = expect O ψ := by
  unfold Spec.expect
  rw [Finset.sum_div]
  apply Finset.sum_congr rfl
  intro s _
  by_cases h : ψ s = 0
  · simp [h]
  · have := born_mul_local O ψ s h 1
    rw [one_mul, one_mul] at this
    rw [← this]
    push_cast
    ring

/-- C119: with exactly weighted samples on which the wave function does not vanish, `measure` reports the real part of
`⟨ψ|O|ψ⟩ / ⟨ψ|ψ⟩`, however many zeros the wave function has: on every rank, for all numbers of ranks and devices and
every batch size. Missing: samples on which it vanishes (`c119_exact_violated`). -/
theorem c119_mean_partial (hk : OperatorOf kernel O) (logPsi : C → LogVal) (zeroCfg : C) (b : ℤ) (n : Option ℕ)
    (w : World (C × LogVal × ℝ)) (hw : SamplesOfN logPsi w) (hnz : ∀ x ∈ allSamples w, logPsi x.1 ≠ none)
    (hb : BornWeights (fun c => (logPsi c).amp) (weightedN w)) :
    ∃ res, measureOpN kernel logPsi zeroCfg b n w = .ok res ∧ res.length = List.length w ∧
      ∀ r ∈ res, ∃ m, r = some m ∧ m.mean = (Spec.expect O fun c => (logPsi c).amp).re := by
  set ψ : C → ℂ := fun c => (logPsi c).amp with hψ
  set w' : World (C × ℂ × ℝ) := World.map (fun x => (x.1, 0, x.2.2)) w with hw'
  have hbw : weighted w' = weightedN w := by
    unfold weighted weightedN
    rw [hw', allSamples_wmap, List.map_map]
    rfl
  have e1 : World.map (fun x => (x.2.2, some (localValue O ψ x.1))) w
      = World.map (fun x => (x.1, some x.2)) (World.map (fun x => (x.2.2, localValue O ψ x.1)) w) := by
    unfold World.map
    simp only [List.map_map, Function.comp_def]
  have e2 : World.map (fun x : ℝ × ℂ => (x.1, fun _ : Fin 1 => x.2)) (World.map (fun x => (x.2.2, localValue O ψ x.1)) w)
      = World.map (fun x => (x.2.2, (fun s (_ : Fin 1) => localValue O ψ s) x.1)) w' := by
    rw [hw']
    unfold World.map
    simp only [List.map_map, Function.comp_def]
  obtain ⟨res, h1, h2, h3⟩ := measureOne_mean n (World.map (fun x => (x.2.2, (fun s (_ : Fin 1) => localValue O ψ s) x.1))
    w') (World.map_ne _ _ (World.map_ne _ _ hw.devices))
  refine ⟨res.map some, ?_, ?_, ?_⟩
  · unfold measureOpN
    rw [oLocWorldN_local hk logPsi zeroCfg b w hw hnz]
    change (match World.finite (World.map (fun x => (x.2.2, some (localValue O ψ x.1))) w) with
      | none => _
      | some w => _ : Except PyErr (List (Flt MeasResult))) = _
    rw [e1, finite_map]
    change Except.bind (measureOne n (World.map (fun x : ℝ × ℂ => (x.1, fun _ : Fin 1 => x.2))
      (World.map (fun x => (x.2.2, localValue O ψ x.1)) w))) _ = _
    rw [e2, h1]
    rfl
  · rw [List.length_map, h2]
    simp [World.map, hw']
  · intro r hr
    obtain ⟨m, hm, rfl⟩ := List.mem_map.mp hr
    refine ⟨m, rfl, ?_⟩
    rw [h3 m hm, wMean_born w' ψ (by rw [hbw]; exact hb) (fun s _ => localValue O ψ s) 0, born_mean_zeros]

end

/-- C119 fails with the exact sampler: for *every* wave function that vanishes on some configuration (not on all) and
every operator with a matrix element above the threshold there, `measure` reports numbers that are infinite or NaN, for
every even split of the basis, every number of ranks and devices and every batch size. -/
theorem c119_exact_violated (d N D ranks : ℕ) [NeZero d] (hl : 2 ≤ d) (hD : 0 < D) (hs : 0 < ranks)
    (hbig : ranks ≤ d ^ N)
    (hdiv : ∀ r < ranks, ∀ n g, distributeSampling ranks r (d ^ N) none 1 = .ok (n, g) → D ∣ n)
    (lastNorm : ℝ) (logPsi : Config N d → LogVal) (hψ : ∃ c, logPsi c ≠ none)
    (kernel : Config N d → List (Config N d × ℂ)) (numOps : ℕ) (hops : ∀ s, (kernel s).length = numOps)
    (hnode : ∃ c, logPsi c = none ∧ ∃ e ∈ kernel c, 1e-6 < ‖e.2‖) (zeroCfg : Config N d) (b : ℤ) :
    ∃ ln' w res, exactSampleWorldN d N D ranks (toConfig N d) (1 / 2) lastNorm logPsi = .ok (ln', w) ∧
      BornWeights (fun c => (logPsi c).amp) (weightedN w) ∧
      measureOpN kernel logPsi zeroCfg b none w = .ok res ∧ res.length = ranks ∧ ∀ r ∈ res, r = none := by
  obtain ⟨ln', w, h1, h2, _, h4, h5, h6⟩ := c119_exact_sampler d N D ranks hl hD hs hbig hdiv lastNorm logPsi hψ
  obtain ⟨c, hc, he⟩ := hnode
  obtain ⟨x, hx, rfl⟩ := h5 c
  obtain ⟨res, e1, e2, e3⟩ := c119_node_sampled numOps hops logPsi zeroCfg b none w h4 ⟨x, hx, hc, he⟩
  exact ⟨ln', w, res, h1, h6, e1, e2.trans h2, e3⟩

/-- C119: with the exact sampler and a wave function without zeros, the expectation value is measured. Missing: wave
functions with zeros (`c119_exact_violated`). -/
theorem c119_exact_partial {N d : ℕ} [NeZero d] (D ranks : ℕ) (hl : 2 ≤ d) (hD : 0 < D) (hs : 0 < ranks)
    (hbig : ranks ≤ d ^ N)
    (hdiv : ∀ r < ranks, ∀ n g, distributeSampling ranks r (d ^ N) none 1 = .ok (n, g) → D ∣ n)
    (lastNorm : ℝ) (logPsi : Config N d → LogVal) (hψ : ∀ c, logPsi c ≠ none)
    {kernel : Config N d → List (Config N d × ℂ)} {O : Matrix (Config N d) (Config N d) ℂ} (hk : OperatorOf kernel O)
    (zeroCfg : Config N d) (b : ℤ) :
    ∃ ln' w res, exactSampleWorldN d N D ranks (toConfig N d) (1 / 2) lastNorm logPsi = .ok (ln', w) ∧
      measureOpN kernel logPsi zeroCfg b none w = .ok res ∧ res.length = ranks ∧
      ∀ r ∈ res, ∃ m, r = some m ∧ m.mean = (Spec.expect O fun c => (logPsi c).amp).re := by
  obtain ⟨ln', w, h1, h2, _, h4, _, h6⟩ := c119_exact_sampler d N D ranks hl hD hs hbig hdiv lastNorm logPsi
    ⟨zeroCfg, hψ _⟩
  obtain ⟨res, e1, e2, e3⟩ := c119_mean_partial hk logPsi zeroCfg b none w h4 (fun _ _ => hψ _) h6
  exact ⟨ln', w, res, h1, e1, e2.trans h2, e3⟩

/-! ## Markov chains -/

/-- C119: a proposed configuration is accepted exactly if the drawn number is smaller than
`(|ψ(s')| / |ψ(s)|) ^ mu`, for all configurations `s` on which the wave function does not vanish; it may vanish on the
proposed one. -/
theorem c119_acceptance (mu : ℝ) (hmu : 0 < mu) (old new : LogVal) (hold : old ≠ none) (u : ℝ) :
    acceptsN mu old new u = true ↔ u < (‖new.amp‖ / ‖old.amp‖) ^ mu := by
  obtain ⟨z, rfl⟩ := Option.ne_none_iff_exists'.1 hold
  cases new with
  | none => simp [acceptsN, LogVal.amp, Real.zero_rpow hmu.ne']
  | some z' =>
    unfold acceptsN LogVal.amp
    dsimp only
    rw [decide_eq_true_iff, Complex.norm_exp, Complex.norm_exp, ← Real.exp_sub, ← Real.exp_mul]
    rw [show (z'.re - z.re) * mu = mu * z'.re - mu * z.re by ring]

/-- C119: a chain never enters a configuration on which the wave function vanishes, for every proposer and all random
numbers (which are not negative), over any number of updates. -/
theorem c119_never_enters {S : Type} (mu : ℝ) (logPsi : S → LogVal) (ds : List ((S → S) × ℝ))
    (hu : ∀ d ∈ ds, 0 ≤ d.2) (s : S) (hs : logPsi s ≠ none) : logPsi (chainRunN mu logPsi s ds) ≠ none := by
  induction ds generalizing s with
  | nil => exact hs
  | cons d ds ih =>
    obtain ⟨prop, u⟩ := d
    refine ih (fun d hd => hu d (by simp [hd])) _ ?_
    unfold chainStepN
    split
    · rename_i h
      obtain ⟨z, hz⟩ := Option.ne_none_iff_exists'.1 hs
      intro hn
      dsimp only at h hn
      rw [hz, hn] at h
      have : 0 ≤ u := hu (prop, u) (by simp)
      simp [acceptsN] at h
      linarith
    · exact hs

/-- C119: a chain that starts on such a configuration stays there as long as only such configurations are proposed,
and then moves to the first proposed configuration on which the wave function does not vanish, whatever is drawn. -/
theorem c119_leaves {S : Type} (mu : ℝ) (logPsi : S → LogVal) (s : S) (hs : logPsi s = none)
    (ds : List ((S → S) × ℝ)) (hds : ∀ d ∈ ds, logPsi (d.1 s) = none) (prop : S → S) (u : ℝ)
    (hp : logPsi (prop s) ≠ none) :
    chainRunN mu logPsi s ds = s ∧ chainRunN mu logPsi s (ds ++ [(prop, u)]) = prop s := by
  induction ds with
  | nil =>
    refine ⟨rfl, ?_⟩
    obtain ⟨z, hz⟩ := Option.ne_none_iff_exists'.1 hp
    change chainStepN mu logPsi s (prop s, u) = prop s
    unfold chainStepN
    dsimp only
    rw [hs, hz]
    rfl
  | cons d ds ih =>
    have h1 : chainStepN mu logPsi s (d.1 s, d.2) = s := by
      unfold chainStepN
      dsimp only
      rw [hs, hds d (by simp)]
      rfl
    obtain ⟨i1, i2⟩ := ih fun d hd => hds d (by simp [hd])
    constructor
    · change chainRunN mu logPsi (chainStepN mu logPsi s (d.1 s, d.2)) ds = s
      rw [h1, i1]
    · change chainRunN mu logPsi (chainStepN mu logPsi s (d.1 s, d.2)) (ds ++ [(prop, u)]) = prop s
      rw [h1, i2]

/-! ## The hypotheses are met -/

/-- Two spins, odd under reflection: `ψ(s₀ s₁) = exp(s₀) - exp(s₁)`. -/
noncomputable def oddPsi (s : Config 2 2) : LogVal :=
  let sym := getOrbit1D 2 false true false 1 (-1) 1
  symNet avgExp (fun x => (x 0 : ℂ)) sym.orbit sym.factor (spins s)

theorem oddPsi_amp (s : Config 2 2) :
    (oddPsi s).amp = Complex.exp (imageOf (1 : Matrix (Fin 2) (Fin 2) ℤ) (spins s) 0)
      - Complex.exp (imageOf (mapMatrix (Fin.rev (n := 2))) (spins s) 0) := by
  unfold oddPsi
  dsimp only
  unfold symNet
  rw [avgExp_amp, factor_two, symImages_eq, List.map_map, zip_map_map, List.map_map, ((orbit_two (-1)).map _).sum_eq]
  have hd : (mapMatrix (Fin.rev (n := 2))).det = -1 := by decide
  simp [hd, sub_eq_add_neg]

theorem spins_two : spins (![0, 1] : Config 2 2) = ![0, 1] := by
  funext i
  fin_cases i <;> rfl

/-- It vanishes on `00` but not on `01`. -/
theorem oddPsi_zeros : oddPsi ![0, 0] = none ∧ oddPsi ![0, 1] ≠ none := by
  constructor
  · exact c119_odd_chain 2 le_rfl 1 1 _ _ (by intro i; fin_cases i <;> rfl)
  · intro h
    have := oddPsi_amp ![0, 1]
    rw [h, spins_two, imageOf_two.1, imageOf_two.2.1] at this
    simp only [LogVal.amp, Matrix.cons_val_zero, Int.cast_zero, Int.cast_one] at this
    have h2 := congrArg Complex.re this
    rw [Complex.exp_zero, Complex.sub_re, Complex.zero_re, Complex.one_re, Complex.exp_re] at h2
    simp at h2
    have : Real.exp 0 < Real.exp 1 := Real.exp_lt_exp.mpr one_pos
    rw [Real.exp_zero] at this
    linarith

theorem sz_elements (s : Config 2 2) : branchFreeKernel [[opSz 0]] [1] s = [(s, arr2 (-1) 1 (s 0))] := by
  have hm : diagIndices ([[opSz 0]] : List (List (LocalOp 2 2))) = [0] := by
    simp [diagIndices, List.range_succ, opSz]
  have hl : maxOpStrLength ([[opSz 0]] : List (List (LocalOp 2 2))) = 1 := rfl
  have hc1 : compileStr 1 ([opSz 0] : List (LocalOp 2 2)) = [opSz 0] := rfl
  have ha : arr2 (0 : Fin 2) 1 (s 0) = s 0 := by generalize s 0 = a; fin_cases a <;> rfl
  simp only [branchFreeKernel, kernelMasked, hm, mergeDiag, rawSPrimes, hl,
    List.zipWith_cons_cons, List.zipWith_nil_right, hc1]
  simp [applyFun, opSz, fermiFactor_bosonic, ha]

example := c119_exact_violated 2 2 1 2 le_rfl one_pos two_pos (by norm_num) (fun _ _ n _ _ => one_dvd n) 0 oddPsi
  ⟨_, oddPsi_zeros.2⟩ (branchFreeKernel [[opSz 0]] [1]) 1 (fun s => by rw [sz_elements]; rfl)
  ⟨_, oddPsi_zeros.1, _, by rw [sz_elements]; exact List.mem_singleton.2 rfl, by norm_num [arr2]⟩ ![0, 0] 3

example := c119_exact_sampler 2 2 1 2 le_rfl one_pos two_pos (by norm_num) (fun _ _ n _ _ => one_dvd n) 0 oddPsi
  ⟨_, oddPsi_zeros.2⟩

/-- A Monte Carlo sample: both configurations with non-zero amplitude. -/
noncomputable def oddSample : World (Config 2 2 × LogVal × ℝ) :=
  [[[(![0, 1], oddPsi ![0, 1], 1 / 2), (![1, 0], oddPsi ![1, 0], 1 / 2)]]]

theorem oddSample_born : SamplesOfN oddPsi oddSample ∧ (∀ x ∈ allSamples oddSample, oddPsi x.1 ≠ none) ∧
    BornWeights (fun c => (oddPsi c).amp) (weightedN oddSample) := by
  have h00 : (oddPsi ![0, 0]).amp = 0 := by rw [oddPsi_zeros.1]; rfl
  have h11 : (oddPsi ![1, 1]).amp = 0 := by
    rw [show oddPsi ![1, 1] = none from c119_odd_chain 2 le_rfl 1 1 _ _ (by intro i; fin_cases i <;> rfl)]
    rfl
  have s10 : spins (![1, 0] : Config 2 2) = ![1, 0] := by
    funext i
    fin_cases i <;> rfl
  have h10 : (oddPsi ![1, 0]).amp = -(oddPsi ![0, 1]).amp := by
    rw [oddPsi_amp, oddPsi_amp, s10, spins_two, imageOf_two.1, imageOf_two.2.1, imageOf_two.2.2.1, imageOf_two.2.2.2]
    simp
  have h01 : (oddPsi ![0, 1]).amp ≠ 0 := fun h => oddPsi_zeros.2 ((amp_eq_zero _).1 h)
  have h10' : oddPsi ![1, 0] ≠ none := fun h => h01 (by
    rw [← neg_eq_zero, ← h10, h]
    rfl)
  have hN : norm2 (fun c => (oddPsi c).amp) = 2 * Complex.normSq (oddPsi ![0, 1]).amp := by
    unfold norm2
    rw [← (finTwoArrowEquiv (Fin 2)).symm.sum_comp, Fintype.sum_prod_type]
    simp only [Fin.sum_univ_two, finTwoArrowEquiv_symm_apply]
    rw [h00, h11, h10]
    simp
    ring
  refine ⟨⟨by simp [oddSample], by simp [oddSample], by simp [oddSample, allSamples]⟩, ?_, ?_, ?_⟩
  · intro x hx
    simp [oddSample, allSamples] at hx
    rcases hx with rfl | rfl
    · exact oddPsi_zeros.2
    · exact h10'
  · intro x hx
    simp [oddSample, weightedN, allSamples] at hx
    rcases hx with rfl | rfl <;> norm_num
  · have hq := Complex.normSq_pos.2 h01
    have hc : ∀ a b : Fin 2, weightOf (weightedN oddSample) ![a, b]
        = Complex.normSq (oddPsi ![a, b]).amp / (2 * Complex.normSq (oddPsi ![0, 1]).amp) := by
      intro a b
      fin_cases a <;> fin_cases b
      · simp [h00, weightOf, weightedN, oddSample, allSamples]
      · simp [weightOf, weightedN, oddSample, allSamples]
        field_simp
      · simp [h10, weightOf, weightedN, oddSample, allSamples]
        field_simp
      · simp [h11, weightOf, weightedN, oddSample, allSamples]
    intro c
    rw [hN]
    have := hc (c 0) (c 1)
    have e : ![c 0, c 1] = c := by
      funext i
      fin_cases i <;> rfl
    rwa [e] at this

example {kernel : Config 2 2 → List (Config 2 2 × ℂ)} {O} (hk : OperatorOf kernel O) :=
  c119_mean_partial hk oddPsi ![0, 0] 3 (some 2) oddSample oddSample_born.1 oddSample_born.2.1 oddSample_born.2.2

example {kernel : Config 2 2 → List (Config 2 2 × ℂ)} {O} (hk : OperatorOf kernel O) :=
  c119_exact_partial 1 2 le_rfl one_pos two_pos (by norm_num) (fun _ _ n _ _ => one_dvd n) 0
    (fun s => some ((s 0 : ℕ) * Complex.I + (s 1 : ℕ))) (by simp) hk ![0, 0] 3

example := c119_acceptance 2 two_pos (oddPsi ![0, 1]) (oddPsi ![0, 0]) oddPsi_zeros.2 (1 / 2)
example := c119_never_enters 2 oddPsi [(fun _ => ![0, 0], 1 / 2), (fun s => s, 0)] (by simp) ![0, 1] oddPsi_zeros.2
example := c119_leaves 2 oddPsi ![0, 0] oddPsi_zeros.1 [(fun _ => ![0, 0], 1 / 2)] (by simp [oddPsi_zeros.1])
  (fun _ => ![0, 1]) 0 oddPsi_zeros.2

end JVMC
