import Verif.Props.NetBuild

/-!
# C81: wave functions built from real networks, and networks that generate samples on square lattices
-/

namespace JVMC

open Spec

section

variable {P : Type}

/-- A symmetry that is in the description with a factor of complex type. -/
def SymDescr.GivenComplex (x : SymDescr) : Prop := x.present = true ∧ ∃ z, x.factor = some (.cpx z)

/-- The logarithm of a real number, as real arithmetic gives it: NaN for negative numbers. -/
noncomputable def realLogOf (S : ℝ) : RealLog := if S < 0 then .nan else if S = 0 then .negInf else .fin (Real.log S)

theorem cpxFactor_iff (d : Descr P) : d.cpxFactor = true ↔ d.translation.GivenComplex ∨ d.reflection.GivenComplex ∨
    d.rotation.GivenComplex ∨ d.spinflip.GivenComplex := by
  have h : ∀ x : SymDescr, (x.present && x.fac.isCpx) = true ↔ x.GivenComplex := by
    rintro ⟨p, _ | _ | _⟩ <;> cases p <;> simp [SymDescr.GivenComplex, SymDescr.fac, SymFactor.isCpx]
  unfold Descr.cpxFactor
  simp only [List.any_cons, List.any_nil, Bool.or_false, Bool.or_eq_true, h]

/-- Real networks with real factors: the logarithm of the sum over the group. -/
theorem symNet_real {n : ℕ} {gens : Set (Matrix (Fin n) (Fin n) ℤ)} {group : List (Matrix (Fin n) (Fin n) ℤ)}
    (hG : IsGroupList gens group) (χ : Matrix (Fin n) (Fin n) ℤ → ℝ) (f : (Fin n → ℤ) → ℝ) (s : Fin n → ℤ) :
    ∃ images : List (Fin n → ℤ), List.Forall₂ (fun g s' => IsImage g s s') group images ∧
      symNet avgExpReal f group (group.map χ) s
        = realLogOf (List.zipWith (fun g s' => χ g * Real.exp (f s')) group images).sum := by
  refine ⟨symImages group s, ?_, ?_⟩
  · rw [symImages_eq, List.forall₂_map_right_iff, List.forall₂_same]
    intro g hgm
    exact imageOf_isImage (hG.signed g hgm) s
  · unfold symNet
    rw [avgExpReal_eq]
    have h : ((((symImages group s).map f).zip (group.map χ)).map fun x => x.2 * Real.exp x.1)
        = List.zipWith (fun g s' => χ g * Real.exp (f s')) group (symImages group s) := by
      rw [symImages_eq, List.map_map, zip_map_map, List.map_map, List.zipWith_map_right, List.zipWith_self]
      rfl
    rw [h]
    rfl

/-- **C81**, real networks that do not generate samples, on chains. If a mentioned symmetry has a complex factor, the
wave function is the projection onto the sector. Otherwise it is the logarithm of the projection in real arithmetic:
right where the projection is not negative, NaN where it is (compare `c57_real_violated`). Factors of symmetries
that are not mentioned do not matter. -/
theorem c81_real_1d_partial (mk : NetDescr P → (n : ℕ) → Except PyErr (NetFun n)) (d : Descr P) (L : ℕ)
    (hL : 0 < L) (f : (Fin L → ℤ) → ℝ) (hd : d.Describes mk L (.real f)) (hrot : d.rotation.present = false)
    (hgen : d.net1.type ≠ "RNN" ∧ d.net1.type ≠ "RNN2D")
    (χ : Matrix (Fin L) (Fin L) ℤ → ℂ) (hχ : IsCharacter (d.gens1D L) χ)
    (ht : d.translation.present = true → ∀ M, IsShift1D M → χ M = givenFactor d.translation.factor)
    (hr : d.reflection.present = true → ∀ M, IsReflection1D M → χ M = givenFactor d.reflection.factor)
    (hs : d.spinflip.present = true → ∀ M, IsSpinflip M → χ M = givenFactor d.spinflip.factor) :
    ((d.translation.GivenComplex ∨ d.reflection.GivenComplex ∨ d.spinflip.GivenComplex) →
      ∃ (d' : Descr P) (psi : (Fin L → ℤ) → LogVal), initNetUtil mk d [L] = (.ok ⟨L, fun s => .cpx (psi s)⟩, d') ∧
        ∃ group, IsGroupList (d.gens1D L) group ∧ ∀ s, ∃ images : List (Fin L → ℤ),
          List.Forall₂ (fun g s' => IsImage g s s') group images ∧
          (psi s).amp = (List.zipWith (fun g s' => χ g * Complex.exp (f s')) group images).sum) ∧
    (¬ (d.translation.GivenComplex ∨ d.reflection.GivenComplex ∨ d.spinflip.GivenComplex) →
      ∃ (d' : Descr P) (psi : (Fin L → ℤ) → RealLog), initNetUtil mk d [L] = (.ok ⟨L, fun s => .real (psi s)⟩, d') ∧
        ∃ group, IsGroupList (d.gens1D L) group ∧ ∀ s, ∃ images : List (Fin L → ℤ),
          List.Forall₂ (fun g s' => IsImage g s s') group images ∧
          psi s = realLogOf (List.zipWith (fun g s' => (χ g).re * Real.exp (f s')) group images).sum) := by
  have : NeZero L := ⟨hL.ne'⟩
  rw [← fac_given] at ht hr hs
  obtain ⟨d', h1, _⟩ := initNetUtil_eq mk d [L] L _ _ hd (by simp) (initOrbit_1d d L hrot)
  have hg : generatorType d.net1.type = false := by
    unfold generatorType
    simp [hgen.1, hgen.2]
  have hG := group1D L d.translation.present d.reflection.present d.spinflip.present
    d.translation.fac.val d.reflection.fac.val d.spinflip.fac.val
  have hF := factor1D L _ _ _ d.translation.fac.val d.reflection.fac.val d.spinflip.fac.val χ hχ ht hr hs
  have hrc : ¬ d.rotation.GivenComplex := fun h => by
    rw [h.1] at hrot
    cases hrot
  refine ⟨fun hc => ?_, fun hc => ?_⟩
  · have hcf : d.cpxFactor = true := (cpxFactor_iff d).mpr (by tauto)
    refine ⟨d', _, by rw [h1, hg, hcf]; rfl, _, hG, fun s => ?_⟩
    obtain ⟨images, hi, ha⟩ := c57_sum L _ _ hG (getOrbit1D L d.translation.present d.reflection.present
      d.spinflip.present d.translation.fac.val d.reflection.fac.val d.spinflip.fac.val).factor (fun x => (f x : ℂ)) s
    refine ⟨images, hi, ?_⟩
    rw [ha, hF, List.zipWith_map_left]
  · have hcf : d.cpxFactor = false := by
      rw [Bool.eq_false_iff]
      intro h
      have := (cpxFactor_iff d).mp h
      tauto
    refine ⟨d', _, by rw [h1, hg, hcf]; rfl, _, hG, fun s => ?_⟩
    obtain ⟨images, hi, ha⟩ := symNet_real hG (fun g => (χ g).re) f s
    refine ⟨images, hi, ?_⟩
    rw [← ha, hF, List.map_map]
    rfl

/-- **C81**, real networks on square lattices. -/
theorem c81_real_2d_partial (mk : NetDescr P → (n : ℕ) → Except PyErr (NetFun n)) (d : Descr P) (L : ℕ)
    (hL : 0 < L) (f : (Fin (L * L) → ℤ) → ℝ) (hd : d.Describes mk (L * L) (.real f))
    (hgen : d.net1.type ≠ "RNN" ∧ d.net1.type ≠ "RNN2D")
    (χ : Matrix (Fin (L * L)) (Fin (L * L)) ℤ → ℂ) (hχ : IsCharacter (d.gens2D L) χ)
    (ht : d.translation.present = true → ∀ M, IsShiftRows M ∨ IsShiftCols M →
      χ M = givenFactor d.translation.factor)
    (hr : d.reflection.present = true → ∀ M, IsFlipRows M ∨ IsFlipCols M →
      χ M = givenFactor d.reflection.factor)
    (hq : d.rotation.present = true → ∀ M, IsRotation M → χ M = givenFactor d.rotation.factor)
    (hs : d.spinflip.present = true → ∀ M, IsSpinflip M → χ M = givenFactor d.spinflip.factor) :
    ((d.translation.GivenComplex ∨ d.reflection.GivenComplex ∨ d.rotation.GivenComplex ∨ d.spinflip.GivenComplex) →
      ∃ (d' : Descr P) (psi : (Fin (L * L) → ℤ) → LogVal),
        initNetUtil mk d [L, L] = (.ok ⟨L * L, fun s => .cpx (psi s)⟩, d') ∧
        ∃ group, IsGroupList (d.gens2D L) group ∧ ∀ s, ∃ images : List (Fin (L * L) → ℤ),
          List.Forall₂ (fun g s' => IsImage g s s') group images ∧
          (psi s).amp = (List.zipWith (fun g s' => χ g * Complex.exp (f s')) group images).sum) ∧
    (¬ (d.translation.GivenComplex ∨ d.reflection.GivenComplex ∨ d.rotation.GivenComplex ∨
        d.spinflip.GivenComplex) →
      ∃ (d' : Descr P) (psi : (Fin (L * L) → ℤ) → RealLog),
        initNetUtil mk d [L, L] = (.ok ⟨L * L, fun s => .real (psi s)⟩, d') ∧
        ∃ group, IsGroupList (d.gens2D L) group ∧ ∀ s, ∃ images : List (Fin (L * L) → ℤ),
          List.Forall₂ (fun g s' => IsImage g s s') group images ∧
          psi s = realLogOf (List.zipWith (fun g s' => (χ g).re * Real.exp (f s')) group images).sum) := by
  have : NeZero L := ⟨hL.ne'⟩
  rw [← fac_given] at ht hr hq hs
  obtain ⟨d', h1, _⟩ := initNetUtil_eq mk d [L, L] (L * L) _ _ hd (by simp) (initOrbit_2d d L)
  have hg : generatorType d.net1.type = false := by
    unfold generatorType
    simp [hgen.1, hgen.2]
  have hG := group2D L d.translation.present d.reflection.present d.rotation.present d.spinflip.present
    d.translation.fac.val d.reflection.fac.val d.rotation.fac.val d.spinflip.fac.val
  have hF := factor2D L _ _ _ _ d.translation.fac.val d.reflection.fac.val d.rotation.fac.val d.spinflip.fac.val
    χ hχ ht hr hq hs
  refine ⟨fun hc => ?_, fun hc => ?_⟩
  · have hcf : d.cpxFactor = true := (cpxFactor_iff d).mpr hc
    refine ⟨d', _, by rw [h1, hg, hcf]; rfl, _, hG, fun s => ?_⟩
    obtain ⟨images, hi, ha⟩ := c57_sum (L * L) _ _ hG (getOrbit2D L d.translation.present d.reflection.present
      d.rotation.present d.spinflip.present d.translation.fac.val d.reflection.fac.val d.rotation.fac.val
      d.spinflip.fac.val).factor (fun x => (f x : ℂ)) s
    refine ⟨images, hi, ?_⟩
    rw [ha, hF, List.zipWith_map_left]
  · have hcf : d.cpxFactor = false := by
      rw [Bool.eq_false_iff]
      exact fun h => hc ((cpxFactor_iff d).mp h)
    refine ⟨d', _, by rw [h1, hg, hcf]; rfl, _, hG, fun s => ?_⟩
    obtain ⟨images, hi, ha⟩ := symNet_real hG (fun g => (χ g).re) f s
    refine ⟨images, hi, ?_⟩
    rw [← ha, hF, List.map_map]
    rfl

/-- The separate average of the images has the mean of the Born probabilities. -/
theorem symNet_sep {n : ℕ} {gens : Set (Matrix (Fin n) (Fin n) ℤ)} {group : List (Matrix (Fin n) (Fin n) ℤ)}
    (hG : IsGroupList gens group) (factor : List ℂ) (f : (Fin n → ℤ) → ℂ) (s : Fin n → ℤ) :
    ∃ images : List (Fin n → ℤ), List.Forall₂ (fun g s' => IsImage g s s') group images ∧
      ‖Complex.exp (symNet avgSep f group factor s)‖ ^ 2
        = (images.map fun s' => ‖Complex.exp (f s')‖ ^ 2).sum / group.length := by
  refine ⟨symImages group s, ?_, ?_⟩
  · rw [symImages_eq, List.forall₂_map_right_iff, List.forall₂_same]
    intro g hgm
    exact imageOf_isImage (hG.signed g hgm) s
  · have hne : group ≠ [] := by
      intro h0
      have := hG.one
      rw [h0] at this
      cases this
    unfold symNet
    rw [avgSep_norm _ _ (by
      rw [symImages_eq]
      simpa using hne)]
    rw [List.map_map, List.length_map]
    congr 1
    · congr 1
      apply List.map_congr_left
      intro s' _
      rw [Complex.norm_exp, ← Real.exp_nat_mul]
      simp only [Function.comp]
      congr 1
      push_cast
      ring
    · rw [symImages_eq, List.length_map]

/-- **C81**, networks that generate samples on square lattices, with real or complex values and any factors. -/
theorem c81_generator_2d_partial (mk : NetDescr P → (n : ℕ) → Except PyErr (NetFun n)) (d : Descr P) (L : ℕ)
    (hL : 0 < L) (f : (Fin (L * L) → ℤ) → ℂ) (net : NetFun (L * L))
    (hf : net = .cpx f ∨ ∃ g : (Fin (L * L) → ℤ) → ℝ, net = .real g ∧ f = fun s => (g s : ℂ))
    (hd : d.Describes mk (L * L) net) (hgen : d.net1.type = "RNN" ∨ d.net1.type = "RNN2D") :
    ∃ (d' : Descr P) (psi : (Fin (L * L) → ℤ) → ℂ),
      initNetUtil mk d [L, L] = (.ok ⟨L * L, fun s => .cpx (some (psi s))⟩, d') ∧
      ∃ group, IsGroupList (d.gens2D L) group ∧ ∀ s, ∃ images : List (Fin (L * L) → ℤ),
        List.Forall₂ (fun g s' => IsImage g s s') group images ∧
        ‖Complex.exp (psi s)‖ ^ 2 = (images.map fun s' => ‖Complex.exp (f s')‖ ^ 2).sum / group.length := by
  have : NeZero L := ⟨hL.ne'⟩
  obtain ⟨d', h1, _⟩ := initNetUtil_eq mk d [L, L] (L * L) _ _ hd (by simp) (initOrbit_2d d L)
  have hg : generatorType d.net1.type = true := by
    unfold generatorType
    rcases hgen with h | h <;> simp [h]
  have hG := group2D L d.translation.present d.reflection.present d.rotation.present d.spinflip.present
    d.translation.fac.val d.reflection.fac.val d.rotation.fac.val d.spinflip.fac.val
  refine ⟨d', symNet avgSep f (getOrbit2D L d.translation.present d.reflection.present
      d.rotation.present d.spinflip.present d.translation.fac.val d.reflection.fac.val d.rotation.fac.val
      d.spinflip.fac.val).orbit (getOrbit2D L d.translation.present d.reflection.present
      d.rotation.present d.spinflip.present d.translation.fac.val d.reflection.fac.val d.rotation.fac.val
      d.spinflip.fac.val).factor, ?_, _, hG, fun s => symNet_sep hG _ f s⟩
  rw [h1, hg]
  rcases hf with rfl | ⟨g, rfl, rfl⟩ <;> rfl

/-- A real network on two sites, odd under reflection; a complex factor for translations is given, but translations
are not mentioned. -/
private noncomputable def oddDescr : Descr Unit where
  net1 := ⟨"RBM", none, ()⟩
  net2 := none
  translation := ⟨false, some (.cpx Complex.I)⟩
  rotation := ⟨false, none⟩
  reflection := ⟨true, some (.real (-1))⟩
  spinflip := ⟨false, none⟩
  batchSize := some 10

/-- The hypotheses of `c81_real_1d_partial` can be met with factors other than one: the determinant is a character of
the reflection. -/
example : oddDescr.Describes (fun _ n => .ok (.real fun s => ∑ i : Fin n, (s i : ℝ) * i)) 2
      (.real fun s => ∑ i : Fin 2, (s i : ℝ) * i) ∧
    IsCharacter (oddDescr.gens1D 2) (fun M => ((M.det : ℤ) : ℂ)) ∧
    (∀ M : Matrix (Fin 2) (Fin 2) ℤ, IsReflection1D M → ((M.det : ℤ) : ℂ) = givenFactor oddDescr.reflection.factor) ∧
    ¬ (oddDescr.translation.GivenComplex ∨ oddDescr.reflection.GivenComplex ∨ oddDescr.spinflip.GivenComplex) := by
  refine ⟨⟨rfl, by decide, ⟨10, rfl⟩, trivial, rfl⟩, ⟨by simp, fun M _ N _ => by simp⟩, fun M hM => ?_, ?_⟩
  · rw [(isReflection1D_iff M).mp hM]
    have hd : (mapMatrix (Fin.rev (n := 2))).det = -1 := by decide
    rw [hd]
    simp [oddDescr, givenFactor]
  · simp [oddDescr, SymDescr.GivenComplex]

end

end JVMC
