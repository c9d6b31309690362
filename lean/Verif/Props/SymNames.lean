import Verif.Model.SymNames
import Verif.Spec.SymNames
import Verif.Props.NetBuild
import Verif.Props.Symmetries

/-!
# Symmetries are selected by name (C132)
-/

namespace JVMC

open Spec Matrix

theorem gens1D_named (L : ℕ) (names : List String) :
    gens1D L (names.contains "translation") (names.contains "reflection") (names.contains "spinflip") =
      {M | ∃ name ∈ names, M ∈ named1D L name} := by
  ext M
  simp only [gens1D, named1D, Set.mem_ofPred_eq, List.contains_iff_mem]
  constructor
  · rintro (⟨h, hM⟩ | ⟨h, hM⟩ | ⟨h, hM⟩)
    · exact ⟨_, h, .inl ⟨rfl, hM⟩⟩
    · exact ⟨_, h, .inr (.inl ⟨rfl, hM⟩)⟩
    · exact ⟨_, h, .inr (.inr ⟨rfl, hM⟩)⟩
  · rintro ⟨_, h, ⟨rfl, hM⟩ | ⟨rfl, hM⟩ | ⟨rfl, hM⟩⟩
    · exact .inl ⟨h, hM⟩
    · exact .inr (.inl ⟨h, hM⟩)
    · exact .inr (.inr ⟨h, hM⟩)

theorem gens2D_named (L : ℕ) (names : List String) :
    gens2D L (names.contains "translation") (names.contains "reflection") (names.contains "rotation")
      (names.contains "spinflip") = {M | ∃ name ∈ names, M ∈ named2D L name} := by
  ext M
  simp only [gens2D, named2D, Set.mem_ofPred_eq, List.contains_iff_mem]
  constructor
  · rintro (⟨h, hM⟩ | ⟨h, hM⟩ | ⟨h, hM⟩ | ⟨h, hM⟩)
    · exact ⟨_, h, .inl ⟨rfl, hM⟩⟩
    · exact ⟨_, h, .inr (.inl ⟨rfl, hM⟩)⟩
    · exact ⟨_, h, .inr (.inr (.inl ⟨rfl, hM⟩))⟩
    · exact ⟨_, h, .inr (.inr (.inr ⟨rfl, hM⟩))⟩
  · rintro ⟨_, h, ⟨rfl, hM⟩ | ⟨rfl, hM⟩ | ⟨rfl, hM⟩ | ⟨rfl, hM⟩⟩
    · exact .inl ⟨h, hM⟩
    · exact .inr (.inl ⟨h, hM⟩)
    · exact .inr (.inr (.inl ⟨h, hM⟩))
    · exact .inr (.inr (.inr ⟨h, hM⟩))

theorem kwFactor_eq (kw : KwFactors) (name : String) : kwFactor kw (name ++ "_factor") = factorFor kw name := by
  unfold kwFactor factorFor
  cases kw.lookup (name ++ "_factor") <;> rfl

/-- **C132** on chains: a call with factors for "translation", "reflection" and "spinflip" returns the group
generated by those of them that are named; each element comes with its value in the representation to which the
factors of the named ones belong. Missing: names which the function does not know are not rejected, see
`c132_unknown_violated` and `c132_rotation_violated`. -/
theorem c132_chain_partial (L : ℕ) (hL : 0 < L) (names : List String) (kw : List (String × ℂ))
    (hk : ∀ e ∈ kw, e.1 ∈ ["translation_factor", "reflection_factor", "spinflip_factor"]) :
    ∃ sym, orbit1DCall L names kw = .ok sym ∧
      IsGroupList {M | ∃ name ∈ names, M ∈ named1D L name} sym.orbit ∧
      ∀ χ : Matrix (Fin L) (Fin L) ℤ → ℂ, IsCharacter {M | ∃ name ∈ names, M ∈ named1D L name} χ →
        (∀ name ∈ names, ∀ M ∈ named1D L name, χ M = factorFor kw name) → sym.factor = sym.orbit.map χ := by
  refine ⟨_, if_pos (List.all_eq_true.mpr fun e he => decide_eq_true (hk e he)), ?_, ?_⟩
  · rw [← gens1D_named]
    exact c56_1d L hL _ _ _ _ _ _
  · intro χ hχ hf
    rw [← gens1D_named] at hχ
    refine c56_factor_1d L hL _ _ _ _ _ _ χ hχ ?_ ?_ ?_
    · intro h M hM
      rw [hf "translation" (List.contains_iff_mem.mp h) M (.inl ⟨rfl, hM⟩)]
      exact (kwFactor_eq kw "translation").symm
    · intro h M hM
      rw [hf "reflection" (List.contains_iff_mem.mp h) M (.inr (.inl ⟨rfl, hM⟩))]
      exact (kwFactor_eq kw "reflection").symm
    · intro h M hM
      rw [hf "spinflip" (List.contains_iff_mem.mp h) M (.inr (.inr ⟨rfl, hM⟩))]
      exact (kwFactor_eq kw "spinflip").symm

/-- **C132** on square lattices, where "rotation" is known as well. -/
theorem c132_lattice_partial (L : ℕ) (hL : 0 < L) (names : List String) (kw : List (String × ℂ))
    (hk : ∀ e ∈ kw, e.1 ∈ ["translation_factor", "reflection_factor", "rotation_factor", "spinflip_factor"]) :
    ∃ sym, orbit2DCall L names kw = .ok sym ∧
      IsGroupList {M | ∃ name ∈ names, M ∈ named2D L name} sym.orbit ∧
      ∀ χ : Matrix (Fin (L * L)) (Fin (L * L)) ℤ → ℂ,
        IsCharacter {M | ∃ name ∈ names, M ∈ named2D L name} χ →
        (∀ name ∈ names, ∀ M ∈ named2D L name, χ M = factorFor kw name) → sym.factor = sym.orbit.map χ := by
  refine ⟨_, if_pos (List.all_eq_true.mpr fun e he => decide_eq_true (hk e he)), ?_, ?_⟩
  · rw [← gens2D_named]
    exact c56_2d L hL _ _ _ _ _ _ _ _
  · intro χ hχ hf
    rw [← gens2D_named] at hχ
    refine c56_factor_2d L hL _ _ _ _ _ _ _ _ χ hχ ?_ ?_ ?_ ?_
    · intro h M hM
      rw [hf "translation" (List.contains_iff_mem.mp h) M (.inl ⟨rfl, hM⟩)]
      exact (kwFactor_eq kw "translation").symm
    · intro h M hM
      rw [hf "reflection" (List.contains_iff_mem.mp h) M (.inr (.inl ⟨rfl, hM⟩))]
      exact (kwFactor_eq kw "reflection").symm
    · intro h M hM
      rw [hf "rotation" (List.contains_iff_mem.mp h) M (.inr (.inr (.inl ⟨rfl, hM⟩)))]
      exact (kwFactor_eq kw "rotation").symm
    · intro h M hM
      rw [hf "spinflip" (List.contains_iff_mem.mp h) M (.inr (.inr (.inr ⟨rfl, hM⟩)))]
      exact (kwFactor_eq kw "spinflip").symm

example := c132_chain_partial 4 (by norm_num) ["spinflip", "translation", "spinflip"] [("translation_factor", -1)]
  (by simp)

example := c132_lattice_partial 3 (by norm_num) ["rotation", "reflection"] [("rotation_factor", -1)]
  (by simp)

theorem contains_congr {names names' : List String} (h : ∀ name, name ∈ names ↔ name ∈ names') (x : String) :
    names.contains x = names'.contains x := by
  rw [Bool.eq_iff_iff, List.contains_iff_mem, List.contains_iff_mem, h]

theorem getOrbit1D_factors (L : ℕ) (t r s : Bool) (tf rf sf tf' rf' sf' : ℂ) (ht : t = true → tf = tf')
    (hr : r = true → rf = rf') (hs : s = true → sf = sf') :
    getOrbit1D L t r s tf rf sf = getOrbit1D L t r s tf' rf' sf' := by
  have e1 : translations1D L t tf = translations1D L t tf' := by
    cases t with
    | true => rw [ht rfl]
    | false => rfl
  have e2 : reflections1D L r rf = reflections1D L r rf' := by
    cases r with
    | true => rw [hr rfl]
    | false => rfl
  unfold getOrbit1D
  rw [e1, e2]
  cases s with
  | true => rw [hs rfl]
  | false => rfl

theorem getOrbit2D_factors (L : ℕ) (t r q s : Bool) (tf rf qf sf tf' rf' qf' sf' : ℂ) (ht : t = true → tf = tf')
    (hr : r = true → rf = rf') (hq : q = true → qf = qf') (hs : s = true → sf = sf') :
    getOrbit2D L t r q s tf rf qf sf = getOrbit2D L t r q s tf' rf' qf' sf' := by
  have e1 : translations2D L t tf = translations2D L t tf' := by
    cases t with
    | true => rw [ht rfl]
    | false => rfl
  have e2 : reflections2D L r rf = reflections2D L r rf' := by
    cases r with
    | true => rw [hr rfl]
    | false => rfl
  have e3 : rotations2D L q qf = rotations2D L q qf' := by
    cases q with
    | true => rw [hq rfl]
    | false => rfl
  unfold getOrbit2D
  rw [e1, e2, e3]
  cases s with
  | true => rw [hs rfl]
  | false => rfl

/-- **C132**: neither the order of the names, nor repeated names, nor factors of symmetries that are not named
matter: the same matrices in the same order with the same factors are returned. -/
theorem c132_same_names (L : ℕ) (names names' : List String) (h : ∀ name, name ∈ names ↔ name ∈ names')
    (kw kw' : List (String × ℂ)) (hf : ∀ name ∈ names, factorFor kw name = factorFor kw' name) :
    (∀ sym sym', orbit1DCall L names kw = .ok sym → orbit1DCall L names' kw' = .ok sym' → sym' = sym) ∧
    (∀ sym sym', orbit2DCall L names kw = .ok sym → orbit2DCall L names' kw' = .ok sym' → sym' = sym) := by
  have hk : ∀ name, names'.contains name = true →
      kwFactor kw' (name ++ "_factor") = kwFactor kw (name ++ "_factor") := by
    intro name hn
    rw [kwFactor_eq, kwFactor_eq, hf name ((h name).mpr (List.contains_iff_mem.mp hn))]
  constructor
  · intro sym sym' e e'
    unfold orbit1DCall at e e'
    split at e
    · split at e'
      · cases e
        cases e'
        simp only [contains_congr h]
        exact getOrbit1D_factors L _ _ _ _ _ _ _ _ _ (hk "translation") (hk "reflection") (hk "spinflip")
      · cases e'
    · cases e
  · intro sym sym' e e'
    unfold orbit2DCall at e e'
    split at e
    · split at e'
      · cases e
        cases e'
        simp only [contains_congr h]
        exact getOrbit2D_factors L _ _ _ _ _ _ _ _ _ _ _ _ (hk "translation") (hk "reflection") (hk "rotation")
          (hk "spinflip")
      · cases e'
    · cases e

/-- The symmetries named in another order, one of them twice, and with a factor that is not needed. -/
example : ∃ sym, orbit1DCall 3 ["translation", "spinflip"] [("spinflip_factor", -1)] = .ok sym ∧
    orbit1DCall 3 ["spinflip", "translation", "spinflip"] [("spinflip_factor", -1), ("reflection_factor", 2)]
      = .ok sym := by
  refine ⟨_, if_pos (by simp), ?_⟩
  obtain ⟨sym, hs, -⟩ := c132_chain_partial 3 (by norm_num) ["spinflip", "translation", "spinflip"]
    [("spinflip_factor", -1), ("reflection_factor", 2)] (by simp)
  rw [hs]
  congr 1
  refine (c132_same_names 3 ["translation", "spinflip"] ["spinflip", "translation", "spinflip"] ?_
    [("spinflip_factor", -1)] [("spinflip_factor", -1), ("reflection_factor", 2)] ?_).1 _ _ (if_pos (by simp)) hs
  · intro name
    simp only [List.mem_cons, List.not_mem_nil, or_false]
    tauto
  · intro name hn
    simp only [List.mem_cons, List.not_mem_nil, or_false] at hn
    rcases hn with rfl | rfl <;> simp [factorFor, List.lookup]

/-- **C132** is false for names that are not in the list of the documentation: they are silently ignored, and so the
group of `get_orbit_1D(L, "translations")` consists of the identity. -/
theorem c132_unknown_violated (L : ℕ) (names : List String) (kw : List (String × ℂ)) (name : String)
    (hn : name ∉ ["translation", "reflection", "rotation", "spinflip"]) :
    orbit1DCall L (name :: names) kw = orbit1DCall L names kw ∧
    orbit2DCall L (name :: names) kw = orbit2DCall L names kw ∧
    ∃ sym, orbit1DCall L [name] [] = .ok sym ∧ sym.orbit = [1] := by
  simp only [List.mem_cons, List.not_mem_nil, or_false, not_or] at hn
  obtain ⟨h1, h2, h3, h4⟩ := hn
  have hc : ∀ x, name ≠ x → (name :: names).contains x = names.contains x := by
    intro x hx
    rw [Bool.eq_iff_iff, List.contains_iff_mem, List.contains_iff_mem, List.mem_cons]
    exact ⟨fun h => h.resolve_left fun e => hx e.symm, .inr⟩
  have hc0 : ∀ x, name ≠ x → [name].contains x = false := by
    intro x hx
    rw [Bool.eq_false_iff, ne_eq, List.contains_iff_mem, List.mem_singleton]
    exact fun e => hx e.symm
  refine ⟨?_, ?_, ?_⟩
  · unfold orbit1DCall
    rw [hc _ h1, hc _ h2, hc _ h4]
  · unfold orbit2DCall
    rw [hc _ h1, hc _ h2, hc _ h3, hc _ h4]
  · refine ⟨_, if_pos rfl, ?_⟩
    rw [hc0 _ h1, hc0 _ h2, hc0 _ h4]
    have he : mapMatrix (index1D L) * mapMatrix (index1D L) = (1 : Matrix (Fin L) (Fin L) ℤ) := by
      have : mapMatrix (index1D L) = (1 : Matrix (Fin L) (Fin L) ℤ) := by
        ext i j
        by_cases h : i = j <;> simp [mapMatrix, index1D, Matrix.one_apply, h]
      rw [this, one_mul]
    simp [getOrbit1D, withSpinflip, orbitsFromMaps1D, translations1D, reflections1D, uniqueOrbit, he]

/-- A spelling mistake. -/
example := c132_unknown_violated 4 ["spinflip"] [] "translations" (by simp)

/-- **C132** is false for "rotation" on a chain, which the documentation lists: the name is silently ignored, and
the documented argument `rotation_factor` raises. -/
theorem c132_rotation_violated (L : ℕ) (names : List String) (kw : List (String × ℂ)) (f : ℂ) :
    orbit1DCall L ("rotation" :: names) kw = orbit1DCall L names kw ∧
    orbit1DCall L names (("rotation_factor", f) :: kw) = .error .typeError := by
  constructor
  · have hc : ∀ x, "rotation" ≠ x → ("rotation" :: names).contains x = names.contains x := by
      intro x hx
      rw [Bool.eq_iff_iff, List.contains_iff_mem, List.contains_iff_mem, List.mem_cons]
      exact ⟨fun h => h.resolve_left fun e => hx e.symm, .inr⟩
    unfold orbit1DCall
    rw [hc _ (by decide), hc _ (by decide), hc _ (by decide)]
  · unfold orbit1DCall
    rw [if_neg]
    simp

/-! ## The keys of a description -/

variable {P : Type}

/-- **C132**, descriptions on chains: a description in which the symmetries are switched on gives a wave function
that is invariant under them; other entries do not matter. Missing: symmetries that are switched off by the value
`False`, see `c132_false_violated`; rotations, see `c81_rotation_violated`. -/
theorem c132_descr_partial (mk : NetDescr P → (n : ℕ) → Except PyErr (NetFun n)) (net1 : NetDescr P) (batch : ℕ)
    (entries : List (String × DescrVal)) (L : ℕ) (hL : 0 < L) (net : NetFun L)
    (hd : (descrOf net1 none (some batch) entries).Describes mk L net)
    (hrot : ∀ e ∈ entries, e.1 ≠ "rotation")
    (hfac : ∀ e ∈ entries, e.1 ∉ ["translation_factor", "reflection_factor", "rotation_factor", "spinflip_factor"]) :
    ∃ d' psi, initNetUtil mk (descrOf net1 none (some batch) entries) [L] = (.ok ⟨L, psi⟩, d') ∧
      ∀ h ∈ Submonoid.closure {M | ∃ name, (name, DescrVal.flag true) ∈ entries ∧ M ∈ named1D L name},
        ∀ s s', IsImage h s s' → psi s' = psi s := by
  have hnone : ∀ key, (∀ e ∈ entries, e.1 ≠ key) → entries.lookup key = none := by
    intro key h
    rw [List.lookup_eq_none_iff]
    intro e he
    simpa using fun h' => h e he h'.symm
  have hsome : ∀ key v, (key, v) ∈ entries → (entries.lookup key).isSome := by
    intro key v h
    by_contra hc
    rw [Bool.not_eq_true, Option.isSome_eq_false_iff, Option.isNone_iff_eq_none, List.lookup_eq_none_iff] at hc
    simpa using hc _ h
  have hn : ∀ key, key ∈ ["translation_factor", "reflection_factor", "rotation_factor", "spinflip_factor"] →
      entries.lookup key = none := fun key hk => hnone key fun e he h => hfac e he (h ▸ hk)
  obtain ⟨d', psi, h1, h2⟩ := c81_invariant_1d_partial mk (descrOf net1 none (some batch) entries) L hL net hd
    (by
      change (entries.lookup "rotation").isSome = false
      rw [hnone _ hrot]
      rfl)
    (by
      refine ⟨?_, ?_, ?_, ?_⟩
      · change (entries.lookup "translation_factor").map _ = none
        rw [hn _ (by simp)]
        rfl
      · change (entries.lookup "reflection_factor").map _ = none
        rw [hn _ (by simp)]
        rfl
      · change (entries.lookup "rotation_factor").map _ = none
        rw [hn _ (by simp)]
        rfl
      · change (entries.lookup "spinflip_factor").map _ = none
        rw [hn _ (by simp)]
        rfl)
  refine ⟨d', psi, h1, fun h hh => h2 h (Submonoid.closure_mono ?_ hh)⟩
  rintro M ⟨name, he, hM⟩
  rcases hM with ⟨rfl, hM⟩ | ⟨rfl, hM⟩ | ⟨rfl, hM⟩
  · exact .inl ⟨hsome _ _ he, hM⟩
  · exact .inr (.inl ⟨hsome _ _ he, hM⟩)
  · exact .inr (.inr ⟨hsome _ _ he, hM⟩)

theorem givenFactor_descr (entries : List (String × DescrVal)) (name : String) :
    givenFactor (descrSymmetry entries name).factor = descrFactor entries name := by
  unfold descrSymmetry descrFactor
  dsimp only
  cases entries.lookup (name ++ "_factor") with
  | none => rfl
  | some v =>
    obtain (_ | _) | (x | z) := v <;> simp [givenFactor, DescrVal.asFactor, descrNumber]

/-- A key with a value `True`, if no symmetry is switched off. -/
theorem mem_of_present (entries : List (String × DescrVal))
    (hon : ∀ e ∈ entries, e.1 ∈ ["translation", "reflection", "rotation", "spinflip"] → e.2 = .flag true)
    (key : String) (hkey : key ∈ ["translation", "reflection", "rotation", "spinflip"])
    (h : (descrSymmetry entries key).present = true) : (key, DescrVal.flag true) ∈ entries := by
  obtain ⟨v, hv⟩ := Option.isSome_iff_exists.mp h
  obtain ⟨l1, l2, he, -⟩ := List.lookup_eq_some_iff.mp hv
  have hm : (key, v) ∈ entries := by
    rw [he]
    simp
  have := hon _ hm hkey
  dsimp only at this
  rwa [← this]

/-- **C132**, descriptions on chains with factors: a complex network that does not generate samples is projected
onto the sector given by the factors of the symmetries that are switched on. Missing: as in `c132_descr_partial`. -/
theorem c132_descr_factor_partial (mk : NetDescr P → (n : ℕ) → Except PyErr (NetFun n)) (net1 : NetDescr P)
    (batch : ℕ) (entries : List (String × DescrVal)) (L : ℕ) (hL : 0 < L) (f : (Fin L → ℤ) → ℂ)
    (hd : (descrOf net1 none (some batch) entries).Describes mk L (.cpx f))
    (hgen : net1.type ≠ "RNN" ∧ net1.type ≠ "RNN2D")
    (hrot : ∀ e ∈ entries, e.1 ≠ "rotation")
    (hon : ∀ e ∈ entries, e.1 ∈ ["translation", "reflection", "rotation", "spinflip"] → e.2 = .flag true)
    (χ : Matrix (Fin L) (Fin L) ℤ → ℂ)
    (hχ : IsCharacter {M | ∃ name, (name, DescrVal.flag true) ∈ entries ∧ M ∈ named1D L name} χ)
    (hf : ∀ name, (name, DescrVal.flag true) ∈ entries → ∀ M ∈ named1D L name, χ M = descrFactor entries name) :
    ∃ (d' : Descr P) (psi : (Fin L → ℤ) → LogVal),
      initNetUtil mk (descrOf net1 none (some batch) entries) [L] = (.ok ⟨L, fun s => .cpx (psi s)⟩, d') ∧
      (∀ h ∈ Submonoid.closure {M | ∃ name, (name, DescrVal.flag true) ∈ entries ∧ M ∈ named1D L name},
        ∀ s s', IsImage h s s' → χ h * (psi s').amp = (psi s).amp) ∧
      ∃ group, IsGroupList {M | ∃ name, (name, DescrVal.flag true) ∈ entries ∧ M ∈ named1D L name} group ∧
        ∀ s, ∃ images : List (Fin L → ℤ), List.Forall₂ (fun g s' => IsImage g s s') group images ∧
          (psi s).amp = (List.zipWith (fun g s' => χ g * Complex.exp (f s')) group images).sum := by
  have hsome : ∀ key v, (key, v) ∈ entries → (entries.lookup key).isSome := by
    intro key v h
    by_contra hc
    rw [Bool.not_eq_true, Option.isSome_eq_false_iff, Option.isNone_iff_eq_none, List.lookup_eq_none_iff] at hc
    simpa using hc _ h
  have hg : (descrOf net1 none (some batch) entries).gens1D L =
      {M | ∃ name, (name, DescrVal.flag true) ∈ entries ∧ M ∈ named1D L name} := by
    ext M
    constructor
    · rintro (⟨h, hM⟩ | ⟨h, hM⟩ | ⟨h, hM⟩)
      · exact ⟨_, mem_of_present entries hon "translation" (by simp) h, .inl ⟨rfl, hM⟩⟩
      · exact ⟨_, mem_of_present entries hon "reflection" (by simp) h, .inr (.inl ⟨rfl, hM⟩)⟩
      · exact ⟨_, mem_of_present entries hon "spinflip" (by simp) h, .inr (.inr ⟨rfl, hM⟩)⟩
    · rintro ⟨name, he, ⟨rfl, hM⟩ | ⟨rfl, hM⟩ | ⟨rfl, hM⟩⟩
      · exact .inl ⟨hsome _ _ he, hM⟩
      · exact .inr (.inl ⟨hsome _ _ he, hM⟩)
      · exact .inr (.inr ⟨hsome _ _ he, hM⟩)
  rw [← hg] at hχ ⊢
  refine c81_projection_1d_partial mk _ L hL f hd ?_ hgen χ hχ ?_ ?_ ?_
  · change (entries.lookup "rotation").isSome = false
    rw [Option.isSome_eq_false_iff, Option.isNone_iff_eq_none, List.lookup_eq_none_iff]
    intro e he
    simpa using fun h' => hrot e he h'.symm
  · intro h M hM
    rw [hf _ (mem_of_present entries hon "translation" (by simp) h) M (.inl ⟨rfl, hM⟩), ← givenFactor_descr]
    rfl
  · intro h M hM
    rw [hf _ (mem_of_present entries hon "reflection" (by simp) h) M (.inr (.inl ⟨rfl, hM⟩)), ← givenFactor_descr]
    rfl
  · intro h M hM
    rw [hf _ (mem_of_present entries hon "spinflip" (by simp) h) M (.inr (.inr ⟨rfl, hM⟩)), ← givenFactor_descr]
    rfl

/-- Odd under spin flips, with a factor for reflections that is not needed. -/
example (f : (Fin 1 → ℤ) → ℂ) := c132_descr_factor_partial (fun _ n => .ok (.cpx fun s => if h : n = 1 then
    f (fun i => s (i.cast h.symm)) else 0)) ⟨"CpxRBM", none, ()⟩ 5
  [("spinflip", .flag true), ("spinflip_factor", .number (.real (-1))), ("reflection_factor", .number (.real 3))] 1
  (by norm_num) f ⟨rfl, by simp [descrOf], ⟨5, rfl⟩, trivial, rfl⟩ (by simp) (by simp) (by simp)
  (fun M => ((M.det : ℤ) : ℂ)) (det_character _) (by
    intro name hn M hM
    simp only [List.mem_cons, List.not_mem_nil, or_false, Prod.mk.injEq, reduceCtorEq, and_false, and_true] at hn
    subst hn
    rcases hM with ⟨h, -⟩ | ⟨h, -⟩ | ⟨-, hM⟩
    · simp at h
    · simp at h
    · rw [(spinflip_iff M).mp hM]
      simp [descrFactor, descrNumber, List.lookup])

/-- **C132**, descriptions on square lattices, where rotations are known as well. Missing: symmetries that are
switched off by the value `False`, see `c132_false_violated`. -/
theorem c132_descr_lattice_partial (mk : NetDescr P → (n : ℕ) → Except PyErr (NetFun n)) (net1 : NetDescr P)
    (batch : ℕ) (entries : List (String × DescrVal)) (L : ℕ) (hL : 0 < L) (net : NetFun (L * L))
    (hd : (descrOf net1 none (some batch) entries).Describes mk (L * L) net)
    (hfac : ∀ e ∈ entries, e.1 ∉ ["translation_factor", "reflection_factor", "rotation_factor", "spinflip_factor"]) :
    ∃ d' psi, initNetUtil mk (descrOf net1 none (some batch) entries) [L, L] = (.ok ⟨L * L, psi⟩, d') ∧
      ∀ h ∈ Submonoid.closure {M | ∃ name, (name, DescrVal.flag true) ∈ entries ∧ M ∈ named2D L name},
        ∀ s s', IsImage h s s' → psi s' = psi s := by
  have hn : ∀ key, key ∈ ["translation_factor", "reflection_factor", "rotation_factor", "spinflip_factor"] →
      entries.lookup key = none := by
    intro key hk
    rw [List.lookup_eq_none_iff]
    intro e he
    simpa using fun h' : key = e.1 => hfac e he (h' ▸ hk)
  have hsome : ∀ key v, (key, v) ∈ entries → (entries.lookup key).isSome := by
    intro key v h
    by_contra hc
    rw [Bool.not_eq_true, Option.isSome_eq_false_iff, Option.isNone_iff_eq_none, List.lookup_eq_none_iff] at hc
    simpa using hc _ h
  obtain ⟨d', psi, h1, h2⟩ := c81_invariant_2d_partial mk (descrOf net1 none (some batch) entries) L hL net hd
    (by
      refine ⟨?_, ?_, ?_, ?_⟩
      · change (entries.lookup "translation_factor").map _ = none
        rw [hn _ (by simp)]
        rfl
      · change (entries.lookup "reflection_factor").map _ = none
        rw [hn _ (by simp)]
        rfl
      · change (entries.lookup "rotation_factor").map _ = none
        rw [hn _ (by simp)]
        rfl
      · change (entries.lookup "spinflip_factor").map _ = none
        rw [hn _ (by simp)]
        rfl)
  refine ⟨d', psi, h1, fun h hh => h2 h (Submonoid.closure_mono ?_ hh)⟩
  rintro M ⟨name, he, hM⟩
  rcases hM with ⟨rfl, hM⟩ | ⟨rfl, hM⟩ | ⟨rfl, hM⟩ | ⟨rfl, hM⟩
  · exact .inl ⟨hsome _ _ he, hM⟩
  · exact .inr (.inl ⟨hsome _ _ he, hM⟩)
  · exact .inr (.inr (.inl ⟨hsome _ _ he, hM⟩))
  · exact .inr (.inr (.inr ⟨hsome _ _ he, hM⟩))

/-- Rotations and translations of a square lattice, and an entry that is not a symmetry. -/
example := c132_descr_lattice_partial (fun _ n => .ok (.real fun s => ∑ i : Fin n, (s i : ℝ) * i))
  ⟨"FFN", none, ()⟩ 1 [("rotation", .flag true), ("translation", .flag true), ("comment", .number (.real 7))] 3
  (by norm_num) (.real fun s => ∑ i : Fin (3 * 3), (s i : ℝ) * i) ⟨rfl, by simp [descrOf], ⟨1, rfl⟩, trivial, rfl⟩
  (by simp)

/-- **C132**, descriptions on square lattices with factors: a complex network that does not generate samples is
projected onto the sector given by the factors of the symmetries that are switched on, and by no others. Missing: as
in `c132_descr_lattice_partial`. -/
theorem c132_descr_lattice_factor_partial (mk : NetDescr P → (n : ℕ) → Except PyErr (NetFun n)) (net1 : NetDescr P)
    (batch : ℕ) (entries : List (String × DescrVal)) (L : ℕ) (hL : 0 < L) (f : (Fin (L * L) → ℤ) → ℂ)
    (hd : (descrOf net1 none (some batch) entries).Describes mk (L * L) (.cpx f))
    (hgen : net1.type ≠ "RNN" ∧ net1.type ≠ "RNN2D")
    (hon : ∀ e ∈ entries, e.1 ∈ ["translation", "reflection", "rotation", "spinflip"] → e.2 = .flag true)
    (χ : Matrix (Fin (L * L)) (Fin (L * L)) ℤ → ℂ)
    (hχ : IsCharacter {M | ∃ name, (name, DescrVal.flag true) ∈ entries ∧ M ∈ named2D L name} χ)
    (hf : ∀ name, (name, DescrVal.flag true) ∈ entries → ∀ M ∈ named2D L name, χ M = descrFactor entries name) :
    ∃ (d' : Descr P) (psi : (Fin (L * L) → ℤ) → LogVal),
      initNetUtil mk (descrOf net1 none (some batch) entries) [L, L] = (.ok ⟨L * L, fun s => .cpx (psi s)⟩, d') ∧
      (∀ h ∈ Submonoid.closure {M | ∃ name, (name, DescrVal.flag true) ∈ entries ∧ M ∈ named2D L name},
        ∀ s s', IsImage h s s' → χ h * (psi s').amp = (psi s).amp) ∧
      ∃ group, IsGroupList {M | ∃ name, (name, DescrVal.flag true) ∈ entries ∧ M ∈ named2D L name} group ∧
        ∀ s, ∃ images : List (Fin (L * L) → ℤ), List.Forall₂ (fun g s' => IsImage g s s') group images ∧
          (psi s).amp = (List.zipWith (fun g s' => χ g * Complex.exp (f s')) group images).sum := by
  have hsome : ∀ key v, (key, v) ∈ entries → (entries.lookup key).isSome := by
    intro key v h
    by_contra hc
    rw [Bool.not_eq_true, Option.isSome_eq_false_iff, Option.isNone_iff_eq_none, List.lookup_eq_none_iff] at hc
    simpa using hc _ h
  have hg : (descrOf net1 none (some batch) entries).gens2D L =
      {M | ∃ name, (name, DescrVal.flag true) ∈ entries ∧ M ∈ named2D L name} := by
    ext M
    constructor
    · rintro (⟨h, hM⟩ | ⟨h, hM⟩ | ⟨h, hM⟩ | ⟨h, hM⟩)
      · exact ⟨_, mem_of_present entries hon "translation" (by simp) h, .inl ⟨rfl, hM⟩⟩
      · exact ⟨_, mem_of_present entries hon "reflection" (by simp) h, .inr (.inl ⟨rfl, hM⟩)⟩
      · exact ⟨_, mem_of_present entries hon "rotation" (by simp) h, .inr (.inr (.inl ⟨rfl, hM⟩))⟩
      · exact ⟨_, mem_of_present entries hon "spinflip" (by simp) h, .inr (.inr (.inr ⟨rfl, hM⟩))⟩
    · rintro ⟨name, he, ⟨rfl, hM⟩ | ⟨rfl, hM⟩ | ⟨rfl, hM⟩ | ⟨rfl, hM⟩⟩
      · exact .inl ⟨hsome _ _ he, hM⟩
      · exact .inr (.inl ⟨hsome _ _ he, hM⟩)
      · exact .inr (.inr (.inl ⟨hsome _ _ he, hM⟩))
      · exact .inr (.inr (.inr ⟨hsome _ _ he, hM⟩))
  rw [← hg] at hχ ⊢
  refine c81_projection_2d_partial mk _ L hL f hd hgen χ hχ ?_ ?_ ?_ ?_
  · intro h M hM
    rw [hf _ (mem_of_present entries hon "translation" (by simp) h) M (.inl ⟨rfl, hM⟩), ← givenFactor_descr]
    rfl
  · intro h M hM
    rw [hf _ (mem_of_present entries hon "reflection" (by simp) h) M (.inr (.inl ⟨rfl, hM⟩)), ← givenFactor_descr]
    rfl
  · intro h M hM
    rw [hf _ (mem_of_present entries hon "rotation" (by simp) h) M (.inr (.inr (.inl ⟨rfl, hM⟩))),
      ← givenFactor_descr]
    rfl
  · intro h M hM
    rw [hf _ (mem_of_present entries hon "spinflip" (by simp) h) M (.inr (.inr (.inr ⟨rfl, hM⟩))),
      ← givenFactor_descr]
    rfl

/-- Odd under spin flips of a single site. -/
example (f : (Fin (1 * 1) → ℤ) → ℂ) := c132_descr_lattice_factor_partial (fun _ n => .ok (.cpx fun s =>
    if h : n = 1 * 1 then f (fun i => s (i.cast h.symm)) else 0)) ⟨"CpxRBM", none, ()⟩ 5
  [("spinflip", .flag true), ("spinflip_factor", .number (.real (-1))), ("rotation_factor", .number (.real 3))] 1
  (by norm_num) f ⟨rfl, by simp [descrOf], ⟨5, rfl⟩, trivial, rfl⟩ (by simp) (by simp)
  (fun M => ((M.det : ℤ) : ℂ)) (det_character _) (by
    intro name hn M hM
    simp only [List.mem_cons, List.not_mem_nil, or_false, Prod.mk.injEq, reduceCtorEq, and_false, and_true] at hn
    subst hn
    rcases hM with ⟨h, -⟩ | ⟨h, -⟩ | ⟨h, -⟩ | ⟨-, hM⟩
    · simp at h
    · simp at h
    · simp at h
    · rw [(spinflip_iff M).mp hM]
      simp [descrFactor, descrNumber, List.lookup])

/-- Descriptions which differ only in the values at the names of the symmetries. -/
theorem descrOf_values (net1 : NetDescr P) (net2 : Option (NetDescr P)) (batch : Option ℕ)
    (name : String) (hname : name ∈ ["translation", "reflection", "rotation", "spinflip"])
    (b : Bool) (before after : List (String × DescrVal)) :
    descrOf net1 net2 batch (before ++ (name, .flag b) :: after) =
      descrOf net1 net2 batch (before ++ (name, .flag true) :: after) := by
  have hsym : ∀ key, key ∈ ["translation", "reflection", "rotation", "spinflip"] →
      descrSymmetry (before ++ (name, .flag b) :: after) key =
        descrSymmetry (before ++ (name, .flag true) :: after) key := by
    intro key hkey
    unfold descrSymmetry
    congr 1
    · rw [List.lookup_append, List.lookup_append, List.lookup_cons, List.lookup_cons]
      cases key == name <;> cases before.lookup key <;> rfl
    · have hne : (key ++ "_factor" == name) = false := by
        simp only [List.mem_cons, List.not_mem_nil, or_false] at hname hkey
        rcases hname with rfl | rfl | rfl | rfl <;> rcases hkey with rfl | rfl | rfl | rfl <;> decide
      rw [List.lookup_append, List.lookup_append, List.lookup_cons, List.lookup_cons, hne]
  unfold descrOf
  rw [hsym "translation" (by simp), hsym "reflection" (by simp), hsym "rotation" (by simp),
    hsym "spinflip" (by simp)]

/-- **C132** is false for symmetries that are switched off in a description with the value `False`: the code asks
only whether the key is there, so that `False` does the same as `True`. -/
theorem c132_false_violated (mk : NetDescr P → (n : ℕ) → Except PyErr (NetFun n)) (net1 : NetDescr P)
    (net2 : Option (NetDescr P)) (batch : Option ℕ) (name : String)
    (hname : name ∈ ["translation", "reflection", "rotation", "spinflip"])
    (before after : List (String × DescrVal)) (dims : List ℕ) :
    initNetUtil mk (descrOf net1 net2 batch (before ++ (name, .flag false) :: after)) dims =
      initNetUtil mk (descrOf net1 net2 batch (before ++ (name, .flag true) :: after)) dims := by
  rw [descrOf_values net1 net2 batch name hname false before after]

/-- Switching translations off has no effect: the network `s ↦ s₀` is not invariant under translations, but the wave
function that `init_net` builds from a description with `"translation": False` is. -/
theorem c132_false_witness_violated : ∃ (d : Descr Unit) (d' : Descr Unit) (psi : (Fin 2 → ℤ) → PsiVal),
    d = descrOf ⟨"FFN", none, ()⟩ none (some 1) [("translation", .flag false)] ∧
    initNetUtil (fun _ n => .ok (.real fun s => ∑ i : Fin n, (s i : ℝ) * i)) d [2] = (.ok ⟨2, psi⟩, d') ∧
    ∀ a b, psi ![a, b] = psi ![b, a] := by
  obtain ⟨d', psi, h1, h2⟩ := c132_descr_partial (fun _ n => .ok (.real fun s => ∑ i : Fin n, (s i : ℝ) * i))
    ⟨"FFN", none, ()⟩ 1 [("translation", .flag true)] 2 (by norm_num) (.real fun s => ∑ i : Fin 2, (s i : ℝ) * i)
    ⟨rfl, by simp [descrOf], ⟨1, rfl⟩, trivial, rfl⟩ (by simp) (by simp)
  refine ⟨_, d', psi, rfl, ?_, ?_⟩
  · exact (c132_false_violated _ _ none (some 1) "translation" (by simp) [] [] [2]).trans h1
  · intro a b
    refine h2 (mapMatrix fun i : Fin 2 => i + 1) (Submonoid.subset_closure ⟨"translation", by simp, .inl ⟨rfl, ?_⟩⟩) _ _ ?_
    · rw [isShift1D_iff]
      ext i j
      fin_cases i <;> fin_cases j <;> rfl
    · intro i
      fin_cases i <;> simp [mapMatrix]

/-! ## Nested dictionaries -/

theorem lookup_values (entries : List (String × DescrVal)) (key : String) :
    (entries.map fun e => (e.1, DictEntry.value (P := P) e.2)).lookup key = (entries.lookup key).map .value := by
  induction entries with
  | nil => rfl
  | cons e l ih =>
    rw [List.map_cons, List.lookup_cons, List.lookup_cons]
    cases key == e.1 <;> simp [ih]

/-- **C132**, dictionaries: the symmetries and factors that are used are those next to `"net1"` and `"batch_size"`,
whatever else the dictionary of the network contains. -/
theorem c132_dictionary (net1 : NetDescr P) (inner entries : List (String × DescrVal)) (b : ℕ)
    (hn : ∀ e ∈ entries, e.1 ≠ "net2") :
    readDescr ([("batch_size", .batch b), ("net1", .net net1 inner)] ++ entries.map fun e => (e.1, .value e.2)) =
      .ok (descrOf net1 none (some b) entries) := by
  have h2 : entries.lookup "net2" = none := by
    rw [List.lookup_eq_none_iff]
    intro e he
    simpa using fun h => hn e he h.symm
  have hs : ∀ key, key ∈ ["translation", "rotation", "reflection", "spinflip"] →
      readSymmetry ([("batch_size", .batch b), ("net1", .net net1 inner)] ++
        entries.map fun e => (e.1, .value e.2)) key = descrSymmetry entries key := by
    intro key hk
    have a1 : (key == "batch_size") = false ∧ (key == "net1") = false ∧ (key ++ "_factor" == "batch_size") = false ∧
        (key ++ "_factor" == "net1") = false := by
      simp only [List.mem_cons, List.not_mem_nil, or_false] at hk
      rcases hk with rfl | rfl | rfl | rfl <;> decide
    obtain ⟨a1, a2, a3, a4⟩ := a1
    unfold readSymmetry descrSymmetry
    simp only [List.cons_append, List.nil_append, List.lookup_cons, a1, a2, a3, a4, lookup_values]
    congr 1
    · simp
    · cases entries.lookup (key ++ "_factor") <;> rfl
  unfold readDescr descrOf
  rw [hs _ (by simp), hs _ (by simp), hs _ (by simp), hs _ (by simp)]
  have l2 : (entries.map fun e => (e.1, DictEntry.value (P := P) e.2)).lookup "net2" = none := by
    rw [lookup_values, h2]
    rfl
  have k1 : ("net2" == "batch_size") = false ∧ ("net2" == "net1") = false ∧ ("net1" == "batch_size") = false := by decide
  simp only [List.cons_append, List.nil_append, List.lookup_cons, k1.1, k1.2.1, k1.2.2, l2, beq_self_eq_true]
  rfl

theorem trivial_orbit {n : ℕ} {gens : Set (Matrix (Fin n) (Fin n) ℤ)} {os : List (Matrix (Fin n) (Fin n) ℤ)}
    (h : IsGroupList gens os) (hg : gens = ∅) : os = [1] := by
  have h1 : ∀ M ∈ os, M = 1 := by
    intro M hM
    rw [h.generated, hg, Submonoid.closure_empty] at hM
    exact hM
  have h2 := h.one
  have h3 := h.nodup
  match os, h1, h2, h3 with
  | [], _, h2, _ => cases h2
  | [a], h1, _, _ => rw [h1 a List.mem_cons_self]
  | a :: b :: l, h1, _, h3 =>
    exfalso
    apply (List.nodup_cons.1 h3).1
    rw [h1 a List.mem_cons_self, ← h1 b (List.mem_cons_of_mem _ List.mem_cons_self)]
    exact List.mem_cons_self

theorem avgSep_single (x : ℝ) (b : List ℂ) : avgSep [(x : ℂ)] b = x := by
  unfold avgSep
  simp
  ring

theorem symmetrise_trivial {n : ℕ} (f : (Fin n → ℤ) → ℝ) (c : Bool) (orbit : LatticeSymmetry n)
    (ho : orbit.orbit = [1]) : symmetrise true c (.real f) orbit = fun s => .cpx (some (f s : ℂ)) := by
  funext s
  unfold symmetrise symNet
  simp only [if_true]
  rw [symImages_eq, ho, List.map_singleton, imageOf_one, List.map_singleton, avgSep_single]

theorem noSymmetry (entries : List (String × DescrVal))
    (hsym : ∀ e ∈ entries, e.1 ∉ ["translation", "reflection", "rotation", "spinflip"]) (key : String)
    (hk : key ∈ ["translation", "reflection", "rotation", "spinflip"]) :
    (descrSymmetry entries key).present = false := by
  have : entries.lookup key = none := by
    rw [List.lookup_eq_none_iff]
    intro e he
    simpa using fun h : key = e.1 => hsym e he (h ▸ hk)
  unfold descrSymmetry
  dsimp only
  rw [this]
  rfl

/-- **C132** is false for symmetries that are named in the dictionary of the network, as in the examples for
dissipative dynamics: for networks which generate samples the wave function is just the network, so that it has only the
symmetries that the network has anyway. -/
theorem c132_nested_violated (mk : NetDescr P → (n : ℕ) → Except PyErr (NetFun n)) (net1 : NetDescr P)
    (inner entries : List (String × DescrVal)) (b : ℕ) (L : ℕ) (hL : 0 < L) (f : (Fin L → ℤ) → ℝ)
    (hd : (descrOf net1 none (some b) entries).Describes mk L (.real f))
    (hgen : net1.type = "RNN" ∨ net1.type = "RNN2D")
    (hsym : ∀ e ∈ entries, e.1 ∉ ["net2", "translation", "reflection", "rotation", "spinflip"]) :
    ∃ d d', readDescr ([("batch_size", .batch b), ("net1", .net net1 inner)] ++
        entries.map fun e => (e.1, .value e.2)) = .ok d ∧
      initNetUtil mk d [L] = (.ok ⟨L, fun s => .cpx (some (f s : ℂ))⟩, d') := by
  have : NeZero L := ⟨hL.ne'⟩
  have hn := noSymmetry entries fun e he h => hsym e he (List.mem_cons_of_mem _ h)
  have hg : generatorType net1.type = true := by
    unfold generatorType
    rcases hgen with h | h <;> simp [h]
  obtain ⟨d', h1, -⟩ := initNetUtil_eq mk _ [L] L _ _ hd (by simp)
    (initOrbit_1d _ L (hn "rotation" (by simp)))
  refine ⟨_, d', c132_dictionary net1 inner entries b fun e he h => hsym e he (by simp [h]), ?_⟩
  rw [h1]
  change (Except.ok (⟨L, symmetrise (generatorType net1.type) _ _ _⟩ : (n : ℕ) × ((Fin n → ℤ) → PsiVal)), d') = _
  rw [hg, symmetrise_trivial]
  apply trivial_orbit (group1D L _ _ _ _ _ _)
  change gens1D L (descrSymmetry entries "translation").present (descrSymmetry entries "reflection").present
    (descrSymmetry entries "spinflip").present = ∅
  rw [hn _ (by simp), hn _ (by simp), hn _ (by simp)]
  simp [gens1D]

/-- **C132** is false for symmetries that are named in the dictionary of the network, on square lattices. -/
theorem c132_nested_lattice_violated (mk : NetDescr P → (n : ℕ) → Except PyErr (NetFun n)) (net1 : NetDescr P)
    (inner entries : List (String × DescrVal)) (b : ℕ) (L : ℕ) (hL : 0 < L) (f : (Fin (L * L) → ℤ) → ℝ)
    (hd : (descrOf net1 none (some b) entries).Describes mk (L * L) (.real f))
    (hgen : net1.type = "RNN" ∨ net1.type = "RNN2D")
    (hsym : ∀ e ∈ entries, e.1 ∉ ["net2", "translation", "reflection", "rotation", "spinflip"]) :
    ∃ d d', readDescr ([("batch_size", .batch b), ("net1", .net net1 inner)] ++
        entries.map fun e => (e.1, .value e.2)) = .ok d ∧
      initNetUtil mk d [L, L] = (.ok ⟨L * L, fun s => .cpx (some (f s : ℂ))⟩, d') := by
  have : NeZero L := ⟨hL.ne'⟩
  have hn := noSymmetry entries fun e he h => hsym e he (List.mem_cons_of_mem _ h)
  have hg : generatorType net1.type = true := by
    unfold generatorType
    rcases hgen with h | h <;> simp [h]
  obtain ⟨d', h1, -⟩ := initNetUtil_eq mk _ [L, L] (L * L) _ _ hd (by simp) (initOrbit_2d _ L)
  refine ⟨_, d', c132_dictionary net1 inner entries b fun e he h => hsym e he (by simp [h]), ?_⟩
  rw [h1]
  change (Except.ok (⟨L * L, symmetrise (generatorType net1.type) _ _ _⟩ : (n : ℕ) × ((Fin n → ℤ) → PsiVal)), d') = _
  rw [hg, symmetrise_trivial]
  apply trivial_orbit (group2D L _ _ _ _ _ _ _ _)
  change gens2D L (descrSymmetry entries "translation").present (descrSymmetry entries "reflection").present
    (descrSymmetry entries "rotation").present (descrSymmetry entries "spinflip").present = ∅
  rw [hn _ (by simp), hn _ (by simp), hn _ (by simp), hn _ (by simp)]
  simp [gens2D]

/-- The description of ex5, with a network that is not invariant under translations. -/
example : ∃ d d' psi, readDescr [("batch_size", .batch 5000), ("net1", .net ⟨"RNN", none, ()⟩ [("translation", .flag true)])]
      = .ok d ∧
    initNetUtil (fun _ n => .ok (.real fun s => ∑ i : Fin n, (s i : ℝ) * i)) d [4] = (.ok ⟨4, psi⟩, d') ∧
    psi ![1, 0, 0, 0] ≠ psi ![0, 1, 0, 0] := by
  obtain ⟨d, d', h1, h2⟩ := c132_nested_violated (fun _ n => .ok (.real fun s => ∑ i : Fin n, (s i : ℝ) * i))
    ⟨"RNN", none, ()⟩ [("translation", .flag true)] [] 5000 4 (by norm_num) (fun s => ∑ i : Fin 4, (s i : ℝ) * i)
    ⟨rfl, by simp [descrOf], ⟨5000, rfl⟩, trivial, rfl⟩ (.inl rfl) (by simp)
  refine ⟨d, d', _, h1, h2, ?_⟩
  simp [Fin.sum_univ_four]

/-- The same entry next to `"net1"` is used. -/
example : readDescr [("batch_size", .batch 5000), ("net1", .net ⟨"RNN", none, ()⟩ []), ("translation", .value (.flag true))]
    = .ok (descrOf ⟨"RNN", none, ()⟩ none (some 5000) [("translation", .flag true)]) :=
  c132_dictionary ⟨"RNN", none, ()⟩ [] [("translation", .flag true)] 5000 (by simp)

end JVMC
