import Mathlib.Analysis.SpecialFunctions.Log.Deriv
import Verif.Lemmas.PovmMany
import Verif.Model.PovmStandard
import Verif.Props.PovmOperator
import Verif.Props.Variational

/-!
# C94: `POVMOperator` generates the master equation it describes

`masterEquation` (Spec/Lindblad) is the right-hand side of the Lindblad equation for many spins;
`productPovm M` is the measurement on every spin, and `outcomeProb (productPovm M) ρ` the distribution of
its outcomes in the state `ρ`.
-/

namespace JVMC

open Spec Matrix

/-! ## The dictionaries -/

/-- The letter used in the names of operators. -/
def axisName : Axis → String
  | .x => "X"
  | .y => "Y"
  | .z => "Z"

/-- The name of a dissipator. -/
def lossName : Loss → String
  | .up => "decayup"
  | .down => "decaydown"
  | .dephasing => "dephasing"

/-- The dictionary a user passes to `POVMOperator.add` for a term of the master equation. -/
def termDict {N : ℕ} (t : ℝ × MasterTerm N) : OpDict N ℝ :=
  match t.2 with
  | .field c i => { name := axisName c, strength := t.1, sites := [i] }
  | .coupling c i j => { name := axisName c ++ axisName c, strength := t.1, sites := [i, j] }
  | .loss c i => { name := lossName c, strength := t.1, sites := [i] }

/-- The contribution of one term to the master equation. -/
noncomputable def termGenerator {N : ℕ} (t : MasterTerm N)
    (ρ : Matrix (Fin N → Fin 2) (Fin N → Fin 2) ℂ) : Matrix (Fin N → Fin 2) (Fin N → Fin 2) ℂ :=
  vonNeumann t.energy ρ + t.dissipation ρ

section linear

variable {n : Type} [Fintype n]

theorem vonNeumann_add (A B ρ : Matrix n n ℂ) :
    vonNeumann (A + B) ρ = vonNeumann A ρ + vonNeumann B ρ := by
  simp only [vonNeumann, Matrix.add_mul, Matrix.mul_add, ← smul_add]
  congr 1
  abel

theorem vonNeumann_smul (c : ℂ) (A ρ : Matrix n n ℂ) :
    vonNeumann (c • A) ρ = c • vonNeumann A ρ := by
  simp only [vonNeumann, Matrix.smul_mul, Matrix.mul_smul, ← smul_sub]
  rw [smul_comm]

theorem vonNeumann_zero (ρ : Matrix n n ℂ) : vonNeumann 0 ρ = 0 := by
  simp [vonNeumann]

theorem outcomeProb_add {ι : Type} (M : ι → Matrix n n ℂ) (ρ σ : Matrix n n ℂ) (a : ι) :
    outcomeProb M (ρ + σ) a = outcomeProb M ρ a + outcomeProb M σ a := by
  simp [outcomeProb, Matrix.add_mul]

theorem outcomeProb_smul {ι : Type} (M : ι → Matrix n n ℂ) (c : ℂ) (ρ : Matrix n n ℂ) (a : ι) :
    outcomeProb M (c • ρ) a = c * outcomeProb M ρ a := by
  simp [outcomeProb]

theorem outcomeProb_zero {ι : Type} (M : ι → Matrix n n ℂ) (a : ι) :
    outcomeProb M (0 : Matrix n n ℂ) a = 0 := by
  simp [outcomeProb]

end linear

theorem masterEquation_cons {N : ℕ} (t : ℝ × MasterTerm N) (ts : List (ℝ × MasterTerm N))
    (ρ : Matrix (Fin N → Fin 2) (Fin N → Fin 2) ℂ) :
    masterEquation (t :: ts) ρ = (t.1 : ℂ) • termGenerator t.2 ρ + masterEquation ts ρ := by
  simp only [masterEquation, totalEnergy, List.map_cons, List.sum_cons, vonNeumann_add,
    vonNeumann_smul, termGenerator, smul_add]
  abel

/-- The distribution of the outcomes changes by the sum of the contributions of the terms. -/
theorem outcomeProb_master {N : ℕ} (M : Fin 4 → Matrix (Fin 2) (Fin 2) ℂ)
    (ts : List (ℝ × MasterTerm N)) (ρ : Matrix (Fin N → Fin 2) (Fin N → Fin 2) ℂ)
    (s : Fin N → Fin 4) :
    outcomeProb (productPovm M) (masterEquation ts ρ) s
      = (ts.map fun t => (t.1 : ℂ)
          * outcomeProb (productPovm M) (termGenerator t.2 ρ) s).sum := by
  induction ts with
  | nil => simp [masterEquation, totalEnergy, vonNeumann_zero, outcomeProb_zero]
  | cons t ts ih =>
    rw [masterEquation_cons, outcomeProb_add, outcomeProb_smul, ih]
    rfl

/-! ## One term -/

section one

variable {M : Fin 4 → Matrix (Fin 2) (Fin 2) ℂ}

theorem oneBody_represents (Ω : Matrix (Fin 4) (Fin 4) ℝ)
    (Λ : Matrix (Fin 2) (Fin 2) ℂ → Matrix (Fin 2) (Fin 2) ℂ)
    (h : ∀ ρ a, ∑ b, ((Ω a b : ℝ) : ℂ) * outcomeProb M ρ b = outcomeProb M (Λ ρ) a)
    (Λ' : Matrix (Fin 1 → Fin 2) (Fin 1 → Fin 2) ℂ → Matrix (Fin 1 → Fin 2) (Fin 1 → Fin 2) ℂ)
    (hΛ : ∀ ρ, (Λ' ρ).submatrix (Equiv.funUnique (Fin 1) (Fin 2)).symm
        (Equiv.funUnique (Fin 1) (Fin 2)).symm
      = Λ (ρ.submatrix (Equiv.funUnique (Fin 1) (Fin 2)).symm
        (Equiv.funUnique (Fin 1) (Fin 2)).symm)) :
    RepresentsOn M 1 (oneBody Ω).2 Λ' := by
  have hM : ∀ a : Fin 1 → Fin 4, productPovm M a
      = (M (Equiv.funUnique (Fin 1) (Fin 4) a)).submatrix (Equiv.funUnique (Fin 1) (Fin 2))
        (Equiv.funUnique (Fin 1) (Fin 2)) := by
    intro a
    ext s t
    simp [productPovm, siteMat]
  intro ρ a
  rw [outcomeProb_rename _ _ M _ hM, hΛ, ← h,
    ← (Equiv.funUnique (Fin 1) (Fin 4)).sum_comp]
  refine Finset.sum_congr rfl fun b _ => ?_
  rw [outcomeProb_rename _ _ M _ hM]
  simp [oneBody]

theorem twoBody_represents (Ω : Matrix (Fin 4 × Fin 4) (Fin 4 × Fin 4) ℝ)
    (Λ : Matrix (Fin 2 × Fin 2) (Fin 2 × Fin 2) ℂ → Matrix (Fin 2 × Fin 2) (Fin 2 × Fin 2) ℂ)
    (h : ∀ ρ a, ∑ b, ((Ω a b : ℝ) : ℂ) * outcomeProb (fun c => onTwoSites (M c.1) (M c.2)) ρ b
      = outcomeProb (fun c => onTwoSites (M c.1) (M c.2)) (Λ ρ) a)
    (Λ' : Matrix (Fin 2 → Fin 2) (Fin 2 → Fin 2) ℂ → Matrix (Fin 2 → Fin 2) (Fin 2 → Fin 2) ℂ)
    (hΛ : ∀ ρ, (Λ' ρ).submatrix (finTwoArrowEquiv (Fin 2)).symm (finTwoArrowEquiv (Fin 2)).symm
      = Λ (ρ.submatrix (finTwoArrowEquiv (Fin 2)).symm (finTwoArrowEquiv (Fin 2)).symm)) :
    RepresentsOn M 2 (twoBody Ω).2 Λ' := by
  have hM : ∀ a : Fin 2 → Fin 4, productPovm M a
      = (onTwoSites (M (finTwoArrowEquiv (Fin 4) a).1)
          (M (finTwoArrowEquiv (Fin 4) a).2)).submatrix (finTwoArrowEquiv (Fin 2))
        (finTwoArrowEquiv (Fin 2)) := by
    intro a
    ext s t
    simp [productPovm, siteMat, onTwoSites, finTwoArrowEquiv, Fin.prod_univ_two]
  intro ρ a
  rw [outcomeProb_rename _ _ (fun c : Fin 4 × Fin 4 => onTwoSites (M c.1) (M c.2)) _ hM, hΛ, ← h,
    ← (finTwoArrowEquiv (Fin 4)).sum_comp]
  refine Finset.sum_congr rfl fun b _ => ?_
  rw [outcomeProb_rename _ _ (fun c : Fin 4 × Fin 4 => onTwoSites (M c.1) (M c.2)) _ hM]
  simp [twoBody, finTwoArrowEquiv]

variable {N : ℕ}

/-- A Hamiltonian term on the listed sites. -/
theorem represents_unitary (sites : List (Fin N)) (h : sites.Nodup)
    (Ω : List (Fin 4) → List (Fin 4) → ℝ)
    (A : Matrix (Fin sites.length → Fin 2) (Fin sites.length → Fin 2) ℂ)
    (hΩ : RepresentsOn M sites.length Ω (vonNeumann A))
    (H : Matrix (Fin N → Fin 2) (Fin N → Fin 2) ℂ)
    (hH : H.submatrix (splitSites sites h (Fin 2)).symm (splitSites sites h (Fin 2)).symm
      = kroneckerMap (· * ·) A 1)
    (ρ : Matrix (Fin N → Fin 2) (Fin N → Fin 2) ℂ) (s : Fin N → Fin 4) :
    ∑ s', ((onSites sites Ω s s' : ℝ) : ℂ) * outcomeProb (productPovm M) ρ s'
      = outcomeProb (productPovm M) (vonNeumann H ρ) s := by
  refine represents_many M sites h Ω _ hΩ _ (fun R ρ => ?_) ρ s
  rw [submatrix_vonNeumann, hH]
  exact reduced_vonNeumann R A _

/-- A dissipator on the listed sites. -/
theorem represents_dissipator (sites : List (Fin N)) (h : sites.Nodup)
    (Ω : List (Fin 4) → List (Fin 4) → ℝ)
    (A : Matrix (Fin sites.length → Fin 2) (Fin sites.length → Fin 2) ℂ)
    (hΩ : RepresentsOn M sites.length Ω (lindblad A))
    (L : Matrix (Fin N → Fin 2) (Fin N → Fin 2) ℂ)
    (hL : L.submatrix (splitSites sites h (Fin 2)).symm (splitSites sites h (Fin 2)).symm
      = kroneckerMap (· * ·) A 1)
    (ρ : Matrix (Fin N → Fin 2) (Fin N → Fin 2) ℂ) (s : Fin N → Fin 4) :
    ∑ s', ((onSites sites Ω s s' : ℝ) : ℂ) * outcomeProb (productPovm M) ρ s'
      = outcomeProb (productPovm M) (lindblad L ρ) s := by
  refine represents_many M sites h Ω _ hΩ _ (fun R ρ => ?_) ρ s
  rw [submatrix_lindblad, hL]
  exact reduced_lindblad R A _

/-- A term of imaginary time evolution on the listed sites. -/
theorem represents_imaginary (sites : List (Fin N)) (h : sites.Nodup)
    (Ω : List (Fin 4) → List (Fin 4) → ℝ)
    (A : Matrix (Fin sites.length → Fin 2) (Fin sites.length → Fin 2) ℂ)
    (hΩ : RepresentsOn M sites.length Ω (imaginaryTime A))
    (H : Matrix (Fin N → Fin 2) (Fin N → Fin 2) ℂ)
    (hH : H.submatrix (splitSites sites h (Fin 2)).symm (splitSites sites h (Fin 2)).symm
      = kroneckerMap (· * ·) A 1)
    (ρ : Matrix (Fin N → Fin 2) (Fin N → Fin 2) ℂ) (s : Fin N → Fin 4) :
    ∑ s', ((onSites sites Ω s s' : ℝ) : ℂ) * outcomeProb (productPovm M) ρ s'
      = outcomeProb (productPovm M) (imaginaryTime H ρ) s := by
  refine represents_many M sites h Ω _ hΩ _ (fun R ρ => ?_) ρ s
  rw [submatrix_imaginaryTime, hH]
  exact reduced_imaginaryTime R A _

end one

/-! ## The predefined operators -/

section standard

variable {N : ℕ}

theorem standard_get (M : Fin 4 → Matrix (Fin 2) (Fin 2) ℂ) (name : String) :
    (standardReg M).operators.get? name
      = (PyDict.get? ((getDissipators M (povmTInv M)).map fun e => (e.1, oneBody e.2)) name).or
        (PyDict.get? ((getUnitaries1 M (povmTInv M)).map (fun e => (e.1, oneBody e.2))
          ++ (getUnitaries2 M (povmTInv M)).map fun e => (e.1, twoBody e.2)) name) := by
  refine c39_standard _ _ ?_ ?_ name
  · simp [getUnitaries1, getUnitaries2, unitariesDM1, unitariesDM2]
  · simp [getDissipators, dissipatorsDM]

theorem standard_field (M : Fin 4 → Matrix (Fin 2) (Fin 2) ℂ) (c : Axis) :
    ∃ Ω, (axisName c, Ω) ∈ getUnitaries1 M (povmTInv M) ∧
      (standardReg M).operators.get? (axisName c) = some (oneBody Ω) := by
  cases c
  · exact ⟨_, List.mem_cons_self, by rw [standard_get]; rfl⟩
  · exact ⟨_, List.mem_cons_of_mem _ List.mem_cons_self, by rw [standard_get]; rfl⟩
  · exact ⟨_, List.mem_cons_of_mem _ (List.mem_cons_of_mem _ List.mem_cons_self), by
      rw [standard_get]; rfl⟩

theorem standard_coupling (M : Fin 4 → Matrix (Fin 2) (Fin 2) ℂ) (c : Axis) :
    ∃ Ω, (axisName c ++ axisName c, Ω) ∈ getUnitaries2 M (povmTInv M) ∧
      (standardReg M).operators.get? (axisName c ++ axisName c) = some (twoBody Ω) := by
  cases c
  · exact ⟨_, List.mem_cons_self, by rw [standard_get]; rfl⟩
  · exact ⟨_, List.mem_cons_of_mem _ List.mem_cons_self, by rw [standard_get]; rfl⟩
  · exact ⟨_, List.mem_cons_of_mem _ (List.mem_cons_of_mem _ List.mem_cons_self), by
      rw [standard_get]; rfl⟩

theorem standard_loss (M : Fin 4 → Matrix (Fin 2) (Fin 2) ℂ) (c : Loss) :
    ∃ Ω, (lossName c, Ω) ∈ getDissipators M (povmTInv M) ∧
      (standardReg M).operators.get? (lossName c) = some (oneBody Ω) := by
  cases c
  · exact ⟨_, List.mem_cons_self, by rw [standard_get]; rfl⟩
  · exact ⟨_, List.mem_cons_of_mem _ List.mem_cons_self, by rw [standard_get]; rfl⟩
  · exact ⟨_, List.mem_cons_of_mem _ (List.mem_cons_of_mem _ List.mem_cons_self), by
      rw [standard_get]; rfl⟩

theorem oneSite_local (A : Matrix (Fin 2) (Fin 2) ℂ) (i : Fin N) (h : [i].Nodup) :
    (oneSite A i).submatrix (splitSites [i] h (Fin 2)).symm (splitSites [i] h (Fin 2)).symm
      = kroneckerMap (· * ·) (siteMat fun _ : Fin [i].length => A) 1 := by
  unfold oneSite
  have e := siteMat_local [i] h (fun k => if k = i then A else 1) (by
    intro j hj
    simp only [List.mem_singleton] at hj
    simp [hj])
  rw [e]
  congr 2
  funext m
  have : m = 0 := Fin.ext (by have := m.2; simp at this ⊢)
  subst this
  simp

theorem twoSites_local (A : Matrix (Fin 2) (Fin 2) ℂ) (i j : Fin N) (h : [i, j].Nodup) :
    (oneSite A i * oneSite A j).submatrix (splitSites [i, j] h (Fin 2)).symm
        (splitSites [i, j] h (Fin 2)).symm
      = kroneckerMap (· * ·) (siteMat fun _ : Fin [i, j].length => A) 1 := by
  have hij : i ≠ j := by simpa using h
  unfold oneSite
  rw [siteMat_mul]
  have e := siteMat_local [i, j] h
    (fun k => (if k = i then A else 1) * (if k = j then A else 1)) (by
    intro k hk
    simp only [List.mem_cons, List.not_mem_nil, or_false, not_or] at hk
    simp [hk])
  rw [e]
  congr 2
  funext m
  fin_cases m
  · simp [hij]
  · simp [hij.symm]

theorem standard_term (θ φ : ℝ) (M : Fin 4 → Matrix (Fin 2) (Fin 2) ℂ)
    (hM : getM θ φ "SIC" = .ok M) (t : ℝ × MasterTerm N) (hp : t.2.Proper) :
    ∃ Ω : LocMat ℝ, (standardReg M).operators.get? (termDict t).name
        = some ((termDict t).sites.length, Ω) ∧
      (termDict t).sites ≠ [] ∧ (termDict t).sites.Nodup ∧ (termDict t).strength = t.1 ∧
      ∀ ρ s, ∑ s', ((onSites (termDict t).sites Ω s s' : ℝ) : ℂ)
          * outcomeProb (productPovm M) ρ s'
        = outcomeProb (productPovm M) (termGenerator t.2 ρ) s := by
  obtain ⟨M', hM', -, -, -, -, hu1, hu2, hd, -⟩ := c38_named θ φ
  obtain rfl := Except.ok.inj (hM.symm.trans hM')
  obtain ⟨g, t⟩ := t
  have e1 : ∀ A : Matrix (Fin 2) (Fin 2) ℂ, (siteMat fun _ : Fin 1 => A).submatrix
      (Equiv.funUnique (Fin 1) (Fin 2)).symm (Equiv.funUnique (Fin 1) (Fin 2)).symm = A := by
    intro A
    ext x y
    simp [siteMat]
  have e2 : ∀ A : Matrix (Fin 2) (Fin 2) ℂ, (siteMat fun _ : Fin 2 => A).submatrix
      (finTwoArrowEquiv (Fin 2)).symm (finTwoArrowEquiv (Fin 2)).symm = onTwoSites A A := by
    intro A
    ext x y
    simp [siteMat, onTwoSites, finTwoArrowEquiv, Fin.prod_univ_two]
  cases t with
  | field c i =>
    obtain ⟨Ω, h1, h2⟩ := standard_field M c
    refine ⟨(oneBody Ω).2, h2, by simp [termDict], by simp [termDict], rfl, fun ρ s => ?_⟩
    have hn : (axisName c, c.pauli) ∈ namedMatrix := by cases c <;> simp [namedMatrix, axisName, Axis.pauli]
    have hr : RepresentsOn M 1 (oneBody Ω).2 (vonNeumann (siteMat fun _ : Fin 1 => c.pauli)) :=
      oneBody_represents Ω (vonNeumann c.pauli) (hu1 _ Ω _ hn h1) _ fun ρ => by
        rw [submatrix_vonNeumann, e1]
    have := represents_unitary (M := M) [i] (by simp) (oneBody Ω).2 _ hr (oneSite c.pauli i)
      (oneSite_local c.pauli i (by simp)) ρ s
    simpa [termGenerator, MasterTerm.energy, MasterTerm.dissipation, termDict] using this
  | coupling c i j =>
    obtain ⟨Ω, h1, h2⟩ := standard_coupling M c
    have hnd : [i, j].Nodup := by simpa using (show i ≠ j from hp)
    refine ⟨(twoBody Ω).2, h2, by simp [termDict], hnd, rfl, fun ρ s => ?_⟩
    have hn : (axisName c, c.pauli) ∈ namedMatrix := by cases c <;> simp [namedMatrix, axisName, Axis.pauli]
    have hr : RepresentsOn M 2 (twoBody Ω).2 (vonNeumann (siteMat fun _ : Fin 2 => c.pauli)) :=
      twoBody_represents Ω (vonNeumann (onTwoSites c.pauli c.pauli)) (hu2 _ Ω _ hn h1) _
        fun ρ => by rw [submatrix_vonNeumann, e2]
    have := represents_unitary (M := M) [i, j] hnd (twoBody Ω).2 _ hr
      (oneSite c.pauli i * oneSite c.pauli j) (twoSites_local c.pauli i j hnd) ρ s
    simpa [termGenerator, MasterTerm.energy, MasterTerm.dissipation, termDict] using this
  | loss c i =>
    obtain ⟨Ω, h1, h2⟩ := standard_loss M c
    refine ⟨(oneBody Ω).2, h2, by simp [termDict], by simp [termDict], rfl, fun ρ s => ?_⟩
    have hn : (lossName c, c.jump) ∈ namedMatrix := by cases c <;> simp [namedMatrix, lossName, Loss.jump]
    have hr : RepresentsOn M 1 (oneBody Ω).2 (lindblad (siteMat fun _ : Fin 1 => c.jump)) :=
      oneBody_represents Ω (lindblad c.jump) (hd _ Ω _ hn h1) _ fun ρ => by
        rw [submatrix_lindblad, e1]
    have := represents_dissipator (M := M) [i] (by simp) (oneBody Ω).2 _ hr (oneSite c.jump i)
      (oneSite_local c.jump i (by simp)) ρ s
    simpa [termGenerator, MasterTerm.energy, MasterTerm.dissipation, termDict, vonNeumann_zero]
      using this

theorem standard_kept (M : Fin 4 → Matrix (Fin 2) (Fin 2) ℂ)
    (calls : List (RegKind × String × (ℕ × LocMat ℝ))) (name : String) (A : ℕ × LocMat ℝ)
    (h : (standardReg M).operators.get? name = some A) :
    ((standardReg M).run calls).operators.get? name = some A := by
  have hU : (((getUnitaries1 M (povmTInv M)).map (fun e => (e.1, oneBody e.2))
      ++ (getUnitaries2 M (povmTInv M)).map fun e => (e.1, twoBody e.2)).map Prod.fst).Nodup := by
    simp [getUnitaries1, getUnitaries2, unitariesDM1, unitariesDM2]
  have hD : (((getDissipators M (povmTInv M)).map fun e => (e.1, oneBody e.2)).map
      Prod.fst).Nodup := by
    simp [getDissipators, dissipatorsDM]
  unfold standardReg at h ⊢
  generalize (getUnitaries1 M (povmTInv M)).map (fun e => (e.1, oneBody e.2))
      ++ (getUnitaries2 M (povmTInv M)).map (fun e => (e.1, twoBody e.2)) = U at h hU ⊢
  generalize (getDissipators M (povmTInv M)).map (fun e => (e.1, oneBody e.2)) = D at h hD ⊢
  exact c39_names_keep U D hU hD [] calls name A h

theorem standard_new (M : Fin 4 → Matrix (Fin 2) (Fin 2) ℂ) (kind : RegKind) (name : String)
    (A : ℕ × LocMat ℝ) (h : (standardReg M).operators.get? name = none) :
    ((standardReg M).run [(kind, name, A)]).operators.get? name = some A := by
  have hU : (((getUnitaries1 M (povmTInv M)).map (fun e => (e.1, oneBody e.2))
      ++ (getUnitaries2 M (povmTInv M)).map fun e => (e.1, twoBody e.2)).map Prod.fst).Nodup := by
    simp [getUnitaries1, getUnitaries2, unitariesDM1, unitariesDM2]
  have hD : (((getDissipators M (povmTInv M)).map fun e => (e.1, oneBody e.2)).map
      Prod.fst).Nodup := by
    simp [getDissipators, dissipatorsDM]
  unfold standardReg at h ⊢
  generalize (getUnitaries1 M (povmTInv M)).map (fun e => (e.1, oneBody e.2))
      ++ (getUnitaries2 M (povmTInv M)).map (fun e => (e.1, twoBody e.2)) = U at h hU ⊢
  generalize (getDissipators M (povmTInv M)).map (fun e => (e.1, oneBody e.2)) = D at h hD ⊢
  have hn := (c39_new_name U D hU hD [] kind name A h).2 name
  rw [if_pos rfl] at hn
  exact hn

theorem elementOf_povmKernel (c : ℕ × List (List (Fin N) × LocMat ℝ)) (s s' : Config N 4) :
    elementOf (povmKernel c s) s' = ((elementOf (povmSPrimes c s) s' : ℝ) : ℂ) := by
  unfold povmKernel
  induction povmSPrimes c s with
  | nil => simp [elementOf]
  | cons e l ih =>
    by_cases h : e.1 = s'
    · simp only [elementOf, List.map_cons, List.filter_cons, h, decide_true, if_true,
        List.sum_cons, Complex.ofReal_add] at ih ⊢
      rw [ih]
    · simp only [elementOf, List.map_cons, List.filter_cons, h, decide_false, Bool.false_eq_true,
        if_false] at ih ⊢
      rw [ih]

/-- Sums over matrix elements of sums of terms. -/
theorem sum_terms {C α : Type} [Fintype C] (l : List α) (g : α → ℝ) (K : α → C → ℝ) (P : C → ℂ) :
    ∑ s', (((l.map fun a => g a * K a s').sum : ℝ) : ℂ) * P s'
      = (l.map fun a => (g a : ℂ) * ∑ s', ((K a s' : ℝ) : ℂ) * P s').sum := by
  induction l with
  | nil => simp
  | cons a l ih =>
    rw [List.map_cons, List.sum_cons, ← ih, Finset.mul_sum, ← Finset.sum_add_distrib]
    refine Finset.sum_congr rfl fun s' _ => ?_
    rw [List.map_cons, List.sum_cons]
    push_cast
    ring

theorem outcomeProb_sum {ι n α : Type} [Fintype n] (M : ι → Matrix n n ℂ) (l : List α)
    (f : α → Matrix n n ℂ) (a : ι) :
    outcomeProb M (l.map f).sum a = (l.map fun x => outcomeProb M (f x) a).sum := by
  induction l with
  | nil => simp [outcomeProb_zero]
  | cons x l ih => rw [List.map_cons, List.sum_cons, outcomeProb_add, ih]; rfl

/-- A compiled operator generates the sum of the generators of its terms. -/
theorem generates_history (M : Fin 4 → Matrix (Fin 2) (Fin 2) ℂ)
    (ops : String → Option (ℕ × LocMat ℝ))
    (enum : List (List (Fin N)) → List (List (Fin N))) (henum : ∀ l x, x ∈ enum l ↔ x ∈ l)
    {T : Type} (terms : List (ℝ × T)) (dict : ℝ × T → OpDict N ℝ)
    (Λ : T → Matrix (Fin N → Fin 2) (Fin N → Fin 2) ℂ → Matrix (Fin N → Fin 2) (Fin N → Fin 2) ℂ)
    (hterm : ∀ t ∈ terms, ∃ Ω : LocMat ℝ, ops (dict t).name = some ((dict t).sites.length, Ω) ∧
      (dict t).sites ≠ [] ∧ (dict t).sites.Nodup ∧ (dict t).strength = t.1 ∧
      ∀ ρ s, ∑ s', ((onSites (dict t).sites Ω s s' : ℝ) : ℂ) * outcomeProb (productPovm M) ρ s'
        = outcomeProb (productPovm M) (Λ t.2 ρ) s)
    (calls : List (ℕ × Fin terms.length))
    (hown : ∀ c ∈ calls, ∀ c' ∈ calls, c.2 = c'.2 → c.1 = c'.1) (o : ℕ)
    (ho : ∃ c ∈ calls, c.1 = o) :
    ∃ c, compilePovm ops enum (((PovmOps.fresh (terms.map dict)).run
          (calls.map fun c => (c.1, c.2.val))).dicts o) = .ok c ∧
      Generates (productPovm M) (fun s s' => elementOf (povmKernel c s) s') fun ρ =>
        ((calls.filter fun c => decide (c.1 = o)).map fun c =>
          (terms[c.2].1 : ℂ) • Λ terms[c.2].2 ρ).sum := by
  let matOf : String → LocMat ℝ := fun name => ((ops name).map Prod.snd).getD fun _ _ => 0
  have hterm : ∀ t ∈ terms, ops (dict t).name
        = some ((dict t).sites.length, matOf (dict t).name) ∧
      (dict t).sites ≠ [] ∧ (dict t).sites.Nodup ∧ (dict t).strength = t.1 ∧
      ∀ ρ s, ∑ s', ((onSites (dict t).sites (matOf (dict t).name) s s' : ℝ) : ℂ)
          * outcomeProb (productPovm M) ρ s'
        = outcomeProb (productPovm M) (Λ t.2 ρ) s := by
    intro t ht
    obtain ⟨Ω, h1, h2, h3, h4, h5⟩ := hterm t ht
    have hm : matOf (dict t).name = Ω := by
      simp only [matOf, h1, Option.map_some, Option.getD_some]
    rw [hm]
    exact ⟨h1, h2, h3, h4, h5⟩
  have hlen : (terms.map dict).length = terms.length := List.length_map _
  obtain ⟨c, h1, h2⟩ := c40_history_partial ops matOf enum henum (terms.map dict)
    (calls.map fun c => (c.1, Fin.cast hlen.symm c.2))
    (by
      intro c hc c' hc' h
      obtain ⟨a, ha, rfl⟩ := List.mem_map.mp hc
      obtain ⟨b, hb, rfl⟩ := List.mem_map.mp hc'
      exact hown a ha b hb (by simpa using h))
    (by
      intro op hop
      obtain ⟨t, ht, rfl⟩ := List.mem_map.mp hop
      obtain ⟨g1, g2, g3, -⟩ := hterm t ht
      exact ⟨g2, g3, g1⟩)
    o (by
      obtain ⟨c, hc, h⟩ := ho
      exact ⟨_, List.mem_map.mpr ⟨c, hc, rfl⟩, h⟩)
  rw [List.map_map] at h1
  refine ⟨c, h1, fun ρ s => ?_⟩
  have hfil : (calls.map fun c => (c.1, Fin.cast hlen.symm c.2)).filter (fun c => decide (c.1 = o))
      = (calls.filter fun c => decide (c.1 = o)).map fun c => (c.1, Fin.cast hlen.symm c.2) := by
    rw [List.filter_map]
    rfl
  rw [outcomeProb_sum]
  simp only [elementOf_povmKernel, h2, hfil, List.map_map, Function.comp_def]
  rw [sum_terms]
  congr 1
  apply List.map_congr_left
  intro a _
  have hg : (terms.map dict)[Fin.cast hlen.symm a.2] = dict terms[a.2] := by simp
  obtain ⟨-, -, -, g4, g5⟩ := hterm terms[a.2] (List.getElem_mem _)
  rw [hg, g4, g5, outcomeProb_smul]

/-- **C94**: an operator assembled from predefined terms generates the Lindblad equation with these
terms. For every SIC-POVM object (also after further operators have been registered), every history of
`add` calls in which no dictionary is given to two operators, every number of spins, every state `ρ`
and every outcome: the matrix elements that the compiled operator returns map the distribution of the
outcomes in the state `ρ` to the time derivative of this distribution under the master equation. -/
theorem c94_master_equation (θ φ : ℝ) :
    ∃ M, povmInit θ φ "SIC" = .ok (M, standardReg M) ∧
      ∀ (regCalls : List (RegKind × String × (ℕ × LocMat ℝ)))
        (enum : List (List (Fin N)) → List (List (Fin N))), (∀ l x, x ∈ enum l ↔ x ∈ l) →
      ∀ (terms : List (ℝ × MasterTerm N)), (∀ t ∈ terms, t.2.Proper) →
      ∀ (calls : List (ℕ × Fin terms.length)),
        (∀ c ∈ calls, ∀ c' ∈ calls, c.2 = c'.2 → c.1 = c'.1) →
      ∀ o, (∃ c ∈ calls, c.1 = o) →
      ∃ c, compilePovm ((standardReg M).run regCalls).operators.get? enum
          (((PovmOps.fresh (terms.map termDict)).run
            (calls.map fun c => (c.1, c.2.val))).dicts o) = .ok c ∧
        Generates (productPovm M) (fun s s' => elementOf (povmKernel c s) s')
          (masterEquation ((calls.filter fun c => decide (c.1 = o)).map fun c => terms[c.2])) := by
  obtain ⟨M, hM, -⟩ := c38_named θ φ
  refine ⟨M, by unfold povmInit; rw [hM]; rfl, ?_⟩
  intro regCalls enum henum terms hp calls hown o ho
  obtain ⟨c, h1, h2⟩ := generates_history M ((standardReg M).run regCalls).operators.get? enum henum
    terms termDict termGenerator (by
      intro t ht
      obtain ⟨Ω, h1, h2, h3, h4, h5⟩ := standard_term θ φ M hM t (hp t ht)
      exact ⟨Ω, standard_kept M regCalls _ _ h1, h2, h3, h4, h5⟩) calls hown o ho
  refine ⟨c, h1, fun ρ s => ?_⟩
  rw [h2 ρ s, outcomeProb_master, outcomeProb_sum, List.map_map]
  simp only [outcomeProb_smul, Function.comp_def]

/-! ## Operators registered by the user -/

/-- Which method registers an operator for a kind of evolution. -/
def kindOf : Evolution → RegKind
  | .unitary => .unitary
  | .dissipative => .dissipator
  | .imaginary => .imaginary

/-- A term of the evolution equation: predefined, or the evolution with a matrix on the listed sites,
with the name it is registered under. -/
inductive PovmTerm (N : ℕ) where
  | standard (t : MasterTerm N)
  | custom (e : Evolution) (name : String) (sites : List (Fin N))
      (A : List (Fin 2) → List (Fin 2) → ℂ)

/-- What a term contributes to the evolution equation. -/
noncomputable def PovmTerm.generator : PovmTerm N →
    Matrix (Fin N → Fin 2) (Fin N → Fin 2) ℂ → Matrix (Fin N → Fin 2) (Fin N → Fin 2) ℂ
  | .standard t => termGenerator t
  | .custom e _ sites A => e.rhs (onSites sites A)

/-- The dictionary a user passes to `POVMOperator.add`. -/
def PovmTerm.dict (t : ℝ × PovmTerm N) : OpDict N ℝ :=
  match t.2 with
  | .standard t' => termDict (t.1, t')
  | .custom _ name sites _ => { name := name, strength := t.1, sites := sites }

/-- Well-formed terms: distinct sites, Hermitian Hamiltonians, and the matrix is registered under the
name of the term. -/
def PovmTerm.Registered (M : Fin 4 → Matrix (Fin 2) (Fin 2) ℂ) (reg : PovmReg (ℕ × LocMat ℝ)) :
    PovmTerm N → Prop
  | .standard t => t.Proper
  | .custom e name sites A => sites ≠ [] ∧ sites.Nodup ∧
      (e ≠ .dissipative → ∀ s t, A s t = star (A t s)) ∧
      reg.operators.get? name = some (customMatrix M (kindOf e) sites.length
        (Matrix.of fun s t => A (List.ofFn s) (List.ofFn t)))

theorem productPovm_overlap (M : Fin 4 → Matrix (Fin 2) (Fin 2) ℂ) (k : ℕ) :
    povmOverlap (productPovm (V := Fin k) M) = siteMat fun _ : Fin k => povmOverlap M := by
  ext a b
  rw [povmOverlap_eq_trace]
  unfold productPovm
  rw [siteMat_mul, siteMat_trace]
  simp only [siteMat, Matrix.of_apply, povmOverlap_eq_trace]

theorem custom_represents (M : Fin 4 → Matrix (Fin 2) (Fin 2) ℂ) (hH : ∀ a, (M a).IsHermitian)
    (hT : povmOverlap M * povmTInv M = 1) (e : Evolution) (k : ℕ)
    (A : Matrix (Fin k → Fin 2) (Fin k → Fin 2) ℂ) (hA : e ≠ .dissipative → A.IsHermitian) :
    RepresentsOn M k (customMatrix M (kindOf e) k A).2 (e.rhs A) := by
  have hTk : povmOverlap (productPovm (V := Fin k) M) * (siteMat fun _ : Fin k => povmTInv M) = 1 := by
    rw [productPovm_overlap, siteMat_mul]
    simp only [hT]
    exact siteMat_one
  have hHk : ∀ a : Fin k → Fin 4, (productPovm M a).IsHermitian := by
    intro a
    ext s t
    simp only [productPovm, siteMat, Matrix.conjTranspose_apply, Matrix.of_apply, star_prod]
    exact Finset.prod_congr rfl fun i _ => (hH (a i)).apply (s i) (t i)
  have hc : InfComplete (productPovm (V := Fin k) M) := infComplete_of_card _ _ hTk (by
    simp only [Fintype.card_fun, Fintype.card_fin]
    rw [← mul_pow]
    norm_num)
  have hl : ∀ a : Fin k → Fin 4, (fun i : Fin k => (List.ofFn a).getD i 0) = a := by
    intro a
    funext i
    simp
  intro ρ a
  cases e with
  | unitary =>
    simp only [customMatrix, kindOf, manyBody, hl]
    exact c38_unitary _ hHk hc _ hTk A (hA (by simp)) ρ a
  | dissipative =>
    simp only [customMatrix, kindOf, manyBody, hl]
    exact c38_dissipative _ hHk hc _ hTk A ρ a
  | imaginary =>
    simp only [customMatrix, kindOf, manyBody, hl]
    exact c38_imaginary _ hHk hc _ hTk A (hA (by simp)) ρ a

/-- **C94** with operators registered by the user, on any number of spins, with `add_unitary`,
`add_dissipator` and `add_imaginary`, mixed with predefined terms. -/
theorem c94_custom (θ φ : ℝ) :
    ∃ M, povmInit θ φ "SIC" = .ok (M, standardReg M) ∧
      ∀ (regCalls : List (RegKind × String × (ℕ × LocMat ℝ)))
        (enum : List (List (Fin N)) → List (List (Fin N))), (∀ l x, x ∈ enum l ↔ x ∈ l) →
      ∀ (terms : List (ℝ × PovmTerm N)),
        (∀ t ∈ terms, t.2.Registered M ((standardReg M).run regCalls)) →
      ∀ (calls : List (ℕ × Fin terms.length)),
        (∀ c ∈ calls, ∀ c' ∈ calls, c.2 = c'.2 → c.1 = c'.1) →
      ∀ o, (∃ c ∈ calls, c.1 = o) →
      ∃ c, compilePovm ((standardReg M).run regCalls).operators.get? enum
          (((PovmOps.fresh (terms.map PovmTerm.dict)).run
            (calls.map fun c => (c.1, c.2.val))).dicts o) = .ok c ∧
        Generates (productPovm M) (fun s s' => elementOf (povmKernel c s) s') fun ρ =>
          ((calls.filter fun c => decide (c.1 = o)).map fun c =>
            (terms[c.2].1 : ℂ) • terms[c.2].2.generator ρ).sum := by
  obtain ⟨M, hM, -, hH, -, hT⟩ := sic_hypotheses θ φ
  refine ⟨M, by unfold povmInit; rw [hM]; rfl, ?_⟩
  intro regCalls enum henum terms hp calls hown o ho
  refine generates_history M _ enum henum terms PovmTerm.dict PovmTerm.generator ?_ calls hown o ho
  rintro ⟨g, t⟩ ht
  have hr := hp _ ht
  cases t with
  | standard t =>
    obtain ⟨Ω, h1, h2, h3, h4, h5⟩ := standard_term θ φ M hM (g, t) hr
    exact ⟨Ω, standard_kept M regCalls _ _ h1, h2, h3, h4, h5⟩
  | custom e name sites A =>
    obtain ⟨h1, h2, h3, h4⟩ := hr
    have hrep := custom_represents M hH hT e sites.length
      (Matrix.of fun s t => A (List.ofFn s) (List.ofFn t)) fun he => by
        ext s t
        exact (h3 he _ _).symm
    refine ⟨_, h4, h1, h2, rfl, fun ρ s => ?_⟩
    cases e with
    | unitary => exact represents_unitary sites h2 _ _ hrep _ (onSites_local sites h2 A) ρ s
    | dissipative => exact represents_dissipator sites h2 _ _ hrep _ (onSites_local sites h2 A) ρ s
    | imaginary => exact represents_imaginary sites h2 _ _ hrep _ (onSites_local sites h2 A) ρ s

/-! ## Consequences -/

section consequences

variable {M : Fin 4 → Matrix (Fin 2) (Fin 2) ℂ}

theorem trace_vonNeumann {n : Type} [Fintype n] (H ρ : Matrix n n ℂ) :
    (vonNeumann H ρ).trace = 0 := by
  simp [vonNeumann, Matrix.trace_mul_comm H ρ]

theorem trace_lindblad {n : Type} [Fintype n] (L ρ : Matrix n n ℂ) : (lindblad L ρ).trace = 0 := by
  have h1 : (L * ρ * Lᴴ).trace = (Lᴴ * L * ρ).trace := by
    rw [Matrix.trace_mul_comm, ← Matrix.mul_assoc]
  have h2 : (ρ * (Lᴴ * L)).trace = (Lᴴ * L * ρ).trace := Matrix.trace_mul_comm _ _
  simp only [lindblad, Matrix.trace_sub, Matrix.trace_smul, Matrix.trace_add, h1, h2, smul_eq_mul]
  ring

theorem trace_master (ts : List (ℝ × MasterTerm N)) (ρ : Matrix (Fin N → Fin 2) (Fin N → Fin 2) ℂ) :
    (masterEquation ts ρ).trace = 0 := by
  unfold masterEquation
  rw [Matrix.trace_add, trace_vonNeumann, zero_add]
  induction ts with
  | nil => simp
  | cons t ts ih =>
    rw [List.map_cons, List.sum_cons, Matrix.trace_add, ih, Matrix.trace_smul]
    cases t.2 <;> simp [MasterTerm.dissipation, trace_lindblad]

theorem productPovm_total {V : Type} [Fintype V] [DecidableEq V]
    (h : ∑ a, M a = 1) : ∑ a : V → Fin 4, productPovm M a = 1 := by
  have := siteMat_sum (V := V) (fun _ _ => (1 : ℂ)) M
  simp only [Finset.prod_const_one, one_smul, h] at this
  rw [this, siteMat_one]

/-- **C94**: probability is conserved on the whole lattice. -/
theorem c94_probability (hM : IsPovm M) (K : Config N 4 → Config N 4 → ℂ)
    (ts : List (ℝ × MasterTerm N)) (hK : Generates (productPovm M) K (masterEquation ts))
    (ρ : Matrix (Fin N → Fin 2) (Fin N → Fin 2) ℂ) :
    ∑ s, ∑ s', K s s' * outcomeProb (productPovm M) ρ s' = 0 := by
  simp only [hK ρ]
  unfold outcomeProb
  rw [← Matrix.trace_sum, ← Finset.mul_sum, productPovm_total hM.2, Matrix.mul_one, trace_master]

theorem povmKernel_length (c : ℕ × List (List (Fin N) × LocMat ℝ)) (s : Config N 4) :
    (povmKernel c s).length = c.2.length * (tuples c.1).length := by
  unfold povmKernel povmSPrimes
  rw [List.length_map, List.length_flatMap]
  simp

theorem hasDerivAt_outcomeProb {ι n : Type} [Fintype n] (M : ι → Matrix n n ℂ)
    (ρ : ℝ → Matrix n n ℂ) (ρ' : Matrix n n ℂ) (t : ℝ)
    (hρ : ∀ x y, HasDerivAt (fun τ => ρ τ x y) (ρ' x y) t) (a : ι) :
    HasDerivAt (fun τ => outcomeProb M (ρ τ) a) (outcomeProb M ρ' a) t := by
  unfold outcomeProb
  simp only [Matrix.trace, Matrix.diag_apply, Matrix.mul_apply]
  exact HasDerivAt.fun_sum fun x _ => HasDerivAt.fun_sum fun y _ => (hρ x y).mul_const _

/-- **C94**: the local estimator. If the network is the logarithm of the distribution of the outcomes in
the state `ρ`, then `get_O_loc` returns for every sample the logarithmic time derivative of the
distribution under the evolution, for every batch size. -/
theorem c94_local_estimator (c : ℕ × List (List (Fin N) × LocMat ℝ))
    (Λ : Matrix (Fin N → Fin 2) (Fin N → Fin 2) ℂ → Matrix (Fin N → Fin 2) (Fin N → Fin 2) ℂ)
    (hc : Generates (productPovm M) (fun s s' => elementOf (povmKernel c s) s') Λ)
    (habove : ∀ s, AboveThreshold (povmKernel c s))
    (ρ : ℝ → Matrix (Fin N → Fin 2) (Fin N → Fin 2) ℂ) (t : ℝ)
    (hρ : ∀ x y, HasDerivAt (fun τ => ρ τ x y) (Λ (ρ t) x y) t)
    (psi : Net (Config N 4)) (hlog : psi.logarithmic = true)
    (hpsi : ∀ s, Complex.exp (psi.val s) = outcomeProb (productPovm M) (ρ t) s)
    (hreal : ∀ s τ, (outcomeProb (productPovm M) (ρ τ) s).im = 0)
    (hpos : ∀ s, 0 < (outcomeProb (productPovm M) (ρ t) s).re)
    (zeroCfg : Config N 4) (b : ℤ) (samples : List (Config N 4)) (hn : samples ≠ []) :
    ∃ out : Config N 4 → ℂ,
      getOLoc (povmKernel c) psi zeroCfg b samples (some (samples.map psi.val))
        = some (samples.map out) ∧
      ∀ s, (out s).im = 0 ∧
        HasDerivAt (fun τ => Real.log (outcomeProb (productPovm M) (ρ τ) s).re) (out s).re t := by
  have hk : OperatorOf (povmKernel c) (Matrix.of fun s s' => elementOf (povmKernel c s) s') :=
    ⟨fun _ _ => rfl, ⟨_, povmKernel_length c⟩, habove⟩
  refine ⟨_, getOLoc_local hk psi hlog zeroCfg b samples hn _ rfl, fun s => ?_⟩
  have hval : localValue (Matrix.of fun s s' => elementOf (povmKernel c s) s')
      (fun c => Complex.exp (psi.val c)) s
      = outcomeProb (productPovm M) (Λ (ρ t)) s / outcomeProb (productPovm M) (ρ t) s := by
    unfold localValue mulVec dotProduct
    simp only [hpsi, Matrix.of_apply]
    rw [hc]
  have hd := hasDerivAt_outcomeProb (productPovm M) ρ _ t hρ s
  have hdre : HasDerivAt (fun τ => (outcomeProb (productPovm M) (ρ τ) s).re)
      (outcomeProb (productPovm M) (Λ (ρ t)) s).re t :=
    (Complex.reCLM.hasFDerivAt.comp_hasDerivAt t hd)
  have hdim : HasDerivAt (fun τ => (outcomeProb (productPovm M) (ρ τ) s).im)
      (outcomeProb (productPovm M) (Λ (ρ t)) s).im t :=
    (Complex.imCLM.hasFDerivAt.comp_hasDerivAt t hd)
  have him : (outcomeProb (productPovm M) (Λ (ρ t)) s).im = 0 := by
    simp only [hreal s] at hdim
    exact hdim.unique (hasDerivAt_const t 0)
  have e1 : outcomeProb (productPovm M) (ρ t) s
      = ((outcomeProb (productPovm M) (ρ t) s).re : ℂ) :=
    Complex.ext rfl (by simp [hreal s t])
  have e2 : outcomeProb (productPovm M) (Λ (ρ t)) s
      = ((outcomeProb (productPovm M) (Λ (ρ t)) s).re : ℂ) :=
    Complex.ext rfl (by simp [him])
  rw [hval, e1, e2, ← Complex.ofReal_div]
  exact ⟨Complex.ofReal_im _, by simpa using hdre.log (hpos s).ne'⟩

end consequences

section examples

theorem dephasing_compiled (ops : String → Option (ℕ × LocMat ℝ)) (Ω : LocMat ℝ)
    (h : ops "dephasing" = some (1, Ω)) :
    compilePovm (N := 1) ops id (((PovmOps.fresh
      ([((1 : ℝ), MasterTerm.loss Loss.dephasing 0)].map termDict)).run [(0, 0)]).dicts 0)
      = .ok (1, [([0], Ω)]) := by
  simp [compilePovm, termDict, lossName, PovmOps.fresh, PovmOps.run, PovmOps.dicts, PovmOps.add,
    pyMax, compileSite, compileLen, compileIndices, opsSame, neighbourComp, opTerm, h, removeUsed,
    padIndices, List.range_succ]

theorem povmVectors_zero (a : Fin 4) (k : Fin 3) : povmVectors 0 0 a k = sicVectors a k := by
  have h1 : rotatorTheta 0 = 1 := by
    ext i j; fin_cases i <;> fin_cases j <;> simp [rotatorTheta]
  have h2 : rotatorPhi 0 = 1 := by
    ext i j; fin_cases i <;> fin_cases j <;> simp [rotatorPhi]
  unfold povmVectors
  rw [h1, h2]
  simp

theorem blochElement_dephasing (v w : Fin 3 → ℝ) :
    (getPaulis 2 * blochElement v * (getPaulis 2)ᴴ * blochElement w).trace
      - 1 / 2 * (((getPaulis 2)ᴴ * getPaulis 2 * blochElement v * blochElement w).trace
        + ((getPaulis 2)ᴴ * getPaulis 2 * blochElement w * blochElement v).trace)
      = ((-(v 0 * w 0 + v 1 * w 1) / 4 : ℝ) : ℂ) := by
  have h1 : (getPaulis 2)ᴴ = !![1, 0; 0, -1] := by
    ext i j
    fin_cases i <;> fin_cases j <;> simp [getPaulis]
  have h2 : getPaulis 2 = !![1, 0; 0, -1] := rfl
  rw [h1, h2, blochElement_entries, blochElement_entries]
  simp only [Matrix.mul_fin_two, Matrix.trace_fin_two_of]
  push_cast
  linear_combination (v 1 * w 1 / 4 : ℂ) * Complex.I_mul_I

theorem dephasing_entries (a b : Fin 4) :
    matrixToPovmDis (getPaulis 2) (fun a => blochElement (povmVectors 0 0 a))
        (povmTInv fun a => blochElement (povmVectors 0 0 a)) a b
      = -(3 / 2) * (sicVectors b 0 * sicVectors a 0 + sicVectors b 1 * sicVectors a 1) := by
  obtain ⟨M, hM, -, hT, -⟩ := c36_overlap_invertible 0 0
  rw [getM_sic] at hM
  obtain rfl := Except.ok.inj hM
  rw [hT, matrixToPovmDis_eq]
  simp only [blochElement_dephasing, povmVectors_zero, Matrix.of_apply]
  fin_cases b <;> simp [Fin.sum_univ_four, sicVectors] <;> ring

theorem dephasing_above (a b : Fin 4) :
    ((-(3 / 2) * (sicVectors b 0 * sicVectors a 0 + sicVectors b 1 * sicVectors a 1) : ℝ)) = 0 ∨
    (1 / 2 : ℝ) ≤ |-(3 / 2) * (sicVectors b 0 * sicVectors a 0 + sicVectors b 1 * sicVectors a 1)| := by
  have e2 : Real.sqrt 2 * Real.sqrt 2 = 2 := Real.mul_self_sqrt (by norm_num)
  have e3 : Real.sqrt (2 / 3) * Real.sqrt (2 / 3) = 2 / 3 := Real.mul_self_sqrt (by norm_num)
  have hv : ∀ x : ℝ, (x = 0 ∨ x = 8 / 9 ∨ x = -(4 / 9)) → -(3 / 2) * x = 0 ∨ (1 / 2 : ℝ) ≤ |-(3 / 2) * x| := by
    rintro x (rfl | rfl | rfl)
    · left; simp
    · right; norm_num
    · right; norm_num
  apply hv
  fin_cases a <;> fin_cases b <;> simp only [sicVectors, Fin.zero_eta, Fin.mk_one, Fin.reduceFinMk, Matrix.of_apply, Matrix.cons_val_zero, Matrix.cons_val_one, Matrix.cons_val]
  all_goals first
    | (left; ring1)
    | (right; left; nlinarith [e2, e3])
    | (right; right; nlinarith [e2, e3])

/-- The state of a spin under dephasing: `ρ(t) = (1 + e^{-2t} X)/2`. -/
noncomputable def dephasingState (t : ℝ) : Matrix (Fin 1 → Fin 2) (Fin 1 → Fin 2) ℂ :=
  Matrix.of fun x y => if x = y then 1 / 2 else (Real.exp (-2 * t) : ℂ) / 2

theorem dephasing_solves (t : ℝ) (x y : Fin 1 → Fin 2) :
    HasDerivAt (fun τ => dephasingState τ x y)
      (masterEquation [(1, MasterTerm.loss Loss.dephasing 0)] (dephasingState t) x y) t := by
  have hm : masterEquation [(1, MasterTerm.loss Loss.dephasing (0 : Fin 1))] (dephasingState t) x y
      = if x = y then 0 else -(Real.exp (-2 * t) : ℂ) := by
    have hL : oneSite (Loss.dephasing.jump) (0 : Fin 1)
        = Matrix.diagonal fun s => if s 0 = 0 then 1 else -1 := by
      ext s u
      have hs : s = fun _ => s 0 := funext fun i => by rw [Subsingleton.elim i 0]
      have hu : u = fun _ => u 0 := funext fun i => by rw [Subsingleton.elim i 0]
      rw [hs, hu]
      generalize s 0 = a
      generalize u 0 = b
      fin_cases a <;> fin_cases b <;> simp [oneSite, siteMat, Loss.jump,
        funext_iff]
    have hLL : (oneSite (Loss.dephasing.jump) (0 : Fin 1))ᴴ * oneSite (Loss.dephasing.jump) 0 = 1 := by
      rw [hL, Matrix.diagonal_conjTranspose, Matrix.diagonal_mul_diagonal]
      ext s u
      simp only [Matrix.diagonal_apply, Matrix.one_apply, Pi.star_apply]
      split_ifs <;> simp
    have hd : masterEquation [(1, MasterTerm.loss Loss.dephasing (0 : Fin 1))] (dephasingState t)
        = lindblad (oneSite (Loss.dephasing.jump) 0) (dephasingState t) := by
      simp [masterEquation, totalEnergy, MasterTerm.energy, MasterTerm.dissipation, vonNeumann_zero]
    rw [hd]
    unfold lindblad
    rw [hLL, Matrix.sub_apply, hL, Matrix.diagonal_conjTranspose, Matrix.mul_diagonal,
      Matrix.diagonal_mul]
    simp only [Matrix.smul_apply, Matrix.add_apply, Matrix.one_mul, Matrix.mul_one, dephasingState,
      Matrix.of_apply, Pi.star_apply]
    by_cases h : x = y
    · subst h
      simp only [if_true]
      split_ifs <;> simp <;> ring
    · have h0 : x 0 ≠ y 0 := fun h' => h (funext fun i => by rw [Subsingleton.elim i 0, h'])
      simp only [h, if_false]
      by_cases hx : x 0 = 0
      · have hy : y 0 ≠ 0 := fun hy => h0 (hx.trans hy.symm)
        simp [hx, hy]
        ring
      · have hy : y 0 = 0 := by omega
        simp [hx, hy]
        ring
  rw [hm]
  by_cases h : x = y
  · simp only [dephasingState, Matrix.of_apply, h, if_true]
    exact hasDerivAt_const t _
  · simp only [dephasingState, Matrix.of_apply, h, if_false]
    have h1 : HasDerivAt (fun τ : ℝ => Real.exp (-2 * τ)) (Real.exp (-2 * t) * (-2)) t := by
      have := ((hasDerivAt_id t).const_mul (-2 : ℝ)).exp
      simpa using this
    have h2 := (h1.ofReal_comp).div_const 2
    refine h2.congr_deriv ?_
    push_cast
    ring

theorem dephasing_prob (t : ℝ) (s : Config 1 4) :
    outcomeProb (productPovm fun a => blochElement (povmVectors 0 0 a)) (dephasingState t) s
      = (((1 + sicVectors (s 0) 0 * Real.exp (-2 * t)) / 4 : ℝ) : ℂ) := by
  unfold outcomeProb
  simp only [Matrix.trace, Matrix.diag_apply, Matrix.mul_apply]
  rw [← (Equiv.funUnique (Fin 1) (Fin 2)).symm.sum_comp]
  simp only [← (Equiv.funUnique (Fin 1) (Fin 2)).symm.sum_comp (fun y : Fin 1 → Fin 2 => dephasingState t _ y * _)]
  simp [Fin.sum_univ_two, dephasingState, productPovm, siteMat, blochElement_entries, povmVectors_zero, funext_iff]
  ring

/-- `c94_master_equation` and `c94_local_estimator` for a spin under dephasing. -/
example : ∃ c, compilePovm (N := 1)
      ((standardReg fun a => blochElement (povmVectors 0 0 a)).run []).operators.get? id
      (((PovmOps.fresh ([((1 : ℝ), MasterTerm.loss Loss.dephasing 0)].map termDict)).run
        [(0, 0)]).dicts 0) = .ok c ∧
    Generates (productPovm fun a => blochElement (povmVectors 0 0 a))
      (fun s s' => elementOf (povmKernel c s) s')
      (masterEquation [(1, MasterTerm.loss Loss.dephasing 0)]) ∧
    (∀ s, AboveThreshold (povmKernel c s)) ∧
    (∀ s t, (outcomeProb (productPovm fun a => blochElement (povmVectors 0 0 a))
      (dephasingState t) s).im = 0) ∧
    (∀ s, 0 < (outcomeProb (productPovm fun a => blochElement (povmVectors 0 0 a))
      (dephasingState 1) s).re) ∧
    outcomeProb (productPovm fun a => blochElement (povmVectors 0 0 a))
      (masterEquation [(1, MasterTerm.loss Loss.dephasing 0)] (dephasingState 1)) (fun _ => 1) ≠ 0 := by
  obtain ⟨M, hM, h⟩ := c94_master_equation (N := 1) 0 0
  have hM' : M = fun a => blochElement (povmVectors 0 0 a) := by
    have e : povmInit 0 0 "SIC" = .ok ((fun a => blochElement (povmVectors 0 0 a)),
      standardReg fun a => blochElement (povmVectors 0 0 a)) := rfl
    rw [e] at hM
    exact (Prod.mk.inj (Except.ok.inj hM)).1.symm
  subst hM'
  obtain ⟨c, h1, h2⟩ := h [] id (fun _ _ => Iff.rfl) [((1 : ℝ), MasterTerm.loss Loss.dephasing 0)]
    (by simp [MasterTerm.Proper]) [(0, 0)] (by simp) 0 (by simp)
  refine ⟨c, h1, h2, ?_, ?_, ?_, ?_⟩
  · have hg : ((standardReg fun a => blochElement (povmVectors 0 0 a)).run []).operators.get?
        "dephasing" = some (oneBody (matrixToPovmDis (getPaulis 2)
          (fun a => blochElement (povmVectors 0 0 a))
          (povmTInv fun a => blochElement (povmVectors 0 0 a)))) := by
      change (standardReg fun a => blochElement (povmVectors 0 0 a)).operators.get? "dephasing" = _
      rw [standard_get]
      rfl
    have hc := (dephasing_compiled _ _ hg).symm.trans h1
    obtain rfl := Except.ok.inj hc
    intro s e he
    simp only [povmKernel, povmSPrimes, List.mem_map, List.mem_flatMap] at he
    obtain ⟨_, ⟨_, hx, y, -, rfl⟩, rfl⟩ := he
    rw [List.mem_singleton] at hx
    subst hx
    simp only [dephasing_entries]
    rcases dephasing_above ((([0] : List (Fin 1)).map s).getD 0 0) (y.getD 0 0) with h | h
    · left
      rw [h, Complex.ofReal_zero]
    · right
      rw [Complex.norm_real, Real.norm_eq_abs]
      linarith
  · intro s t
    rw [dephasing_prob]
    exact Complex.ofReal_im _
  · intro s
    rw [dephasing_prob, Complex.ofReal_re]
    have h2 : Real.sqrt 2 < 3 / 2 := by
      rw [Real.sqrt_lt' (by norm_num)]
      norm_num
    have h2' := Real.sqrt_nonneg 2
    have he : Real.exp (-2 * 1) ≤ 1 := Real.exp_le_one_iff.mpr (by norm_num)
    have he' := Real.exp_pos (-2 * 1)
    have hx : -1 < sicVectors (s 0) 0 := by
      generalize s 0 = a
      fin_cases a <;> simp [sicVectors] <;> linarith
    have h3 : ∀ x e : ℝ, -1 < x → e ≤ 1 → 0 < e → 0 < (1 + x * e) / 4 := fun x e h h' h'' => by
      have := mul_lt_mul_of_pos_right h h''
      linarith
    exact h3 _ _ hx he he'
  · have h := (hasDerivAt_outcomeProb (productPovm fun a => blochElement (povmVectors 0 0 a))
      dephasingState _ 1 (dephasing_solves 1) (fun _ => 1))
    simp only [dephasing_prob] at h
    have h1 : HasDerivAt (fun τ : ℝ => Real.exp (-2 * τ)) (Real.exp (-2 * 1) * (-2)) 1 := by
      have := ((hasDerivAt_id (1 : ℝ)).const_mul (-2 : ℝ)).exp
      simpa using this
    have h2 := ((((h1.const_mul (sicVectors 1 0)).const_add 1).div_const 4).ofReal_comp)
    rw [h.unique h2]
    have h3 : sicVectors 1 0 ≠ 0 := by simp [sicVectors]
    have h4 := Real.exp_ne_zero (-2 * 1)
    rw [Complex.ofReal_ne_zero]
    positivity

/-- The hypotheses of `c94_custom`: a hopping term on sites 2 and 0 of a lattice with three sites,
registered under a new name, next to a predefined term. -/
example (M : Fin 4 → Matrix (Fin 2) (Fin 2) ℂ) :
    let A : List (Fin 2) → List (Fin 2) → ℂ := fun s t =>
      if s = [0, 1] ∧ t = [1, 0] then Complex.I else if s = [1, 0] ∧ t = [0, 1] then -Complex.I else 0
    let regCalls : List (RegKind × String × (ℕ × LocMat ℝ)) :=
      [(.unitary, "hop", customMatrix M .unitary 2
        (Matrix.of fun s t => A (List.ofFn s) (List.ofFn t)))]
    ∀ t ∈ [((2 : ℝ), PovmTerm.custom (N := 3) .unitary "hop" [2, 0] A),
        (1, .standard (.coupling .x 0 1))],
      t.2.Registered M ((standardReg M).run regCalls) := by
  intro A regCalls t ht
  simp only [List.mem_cons, List.not_mem_nil, or_false] at ht
  rcases ht with rfl | rfl
  · refine ⟨by simp, by simp, fun _ s t => ?_, ?_⟩
    · simp only [A]
      by_cases h1 : s = [0, 1] ∧ t = [1, 0]
      · obtain ⟨rfl, rfl⟩ := h1
        simp
      · by_cases h2 : s = [1, 0] ∧ t = [0, 1]
        · obtain ⟨rfl, rfl⟩ := h2
          simp
        · rw [if_neg h1, if_neg h2, if_neg (fun h => h2 ⟨h.2, h.1⟩), if_neg (fun h => h1 ⟨h.2, h.1⟩)]
          simp
    · have hno : (standardReg M).operators.get? "hop" = none := by rw [standard_get]; rfl
      exact standard_new M .unitary "hop" _ hno
  · show (0 : Fin 3) ≠ 1
    decide

end examples

end standard

end JVMC
