import Mathlib.Tactic.IntervalCases
import Verif.Model.Initializers

/-! # Property C86: networks can be created with every supported flax release

"With every flax release the package declares to support (0.7.0 or later), the layers of the
networks create their parameters with the given initialisers and dtype." -/

namespace JVMC

variable {D F : Type}

/-- The keyword arguments used by the networks: `kernel_init` and `bias_init`. -/
def layerKwargs (kernel bias : F) : List (List Char × F) :=
  [("kernel_init".toList, kernel), ("bias_init".toList, bias)]

/-- What C86 requires of a flax release. -/
def CreatesParams (major minor patch : ℕ) : Prop :=
  ∀ (D F : Type) (d defaultDtype : D) (defaultInit kernel bias : F),
    createParam defaultDtype defaultInit
      (initFnArgs (versionString major minor patch) (some d) (layerKwargs kernel bias))
      "kernel_init".toList = .ok (kernel, some d) ∧
    createParam defaultDtype defaultInit
      (initFnArgs (versionString major minor patch) (some d) (layerKwargs kernel bias))
      "bias_init".toList = .ok (bias, some d)

private theorem creates_iff (a b c : ℕ) :
    CreatesParams a b c ↔ pyStrLt (versionString a b c) "0.4.0".toList = false := by
  constructor
  · intro h
    by_contra hc
    have hc : pyStrLt (versionString a b c) "0.4.0".toList = true := by simpa using hc
    have := (h Unit Unit () () () () ()).1
    unfold initFnArgs at this
    rw [hc] at this
    have e : createParam () () ((([("dtype".toList, InitVal.dtype (some ()))] :
        List (List Char × InitVal Unit Unit)) ++
        ((layerKwargs () ()).filter fun k => "init".toList.isSuffixOf k.1).map
          fun k => (k.1, .initPartial k.2 (some ())))) "kernel_init".toList
        = .error .typeError := by decide
    simp only [not_true_eq_false, if_false] at this
    rw [e] at this
    cases this
  · intro h D F d dd di k b
    unfold initFnArgs
    rw [h]
    exact ⟨rfl, rfl⟩

/-- **C86**, as far as it holds: the releases 0.7, 0.8 and 0.9 with any patch number. Missing: later
releases, see `c86_violated`. -/
theorem c86_supported_releases_partial (minor patch : ℕ) (h7 : 7 ≤ minor) (h9 : minor ≤ 9) :
    CreatesParams 0 minor patch := by
  rw [creates_iff]
  unfold versionString
  interval_cases minor <;> rfl

/-- **C86 is violated**: with every release 0.10 to 0.39 (the version string is compared as a
string, and `"0.10.0" < "0.4.0"`) creating the parameters of a layer raises TypeError. -/
theorem c86_violated (minor patch : ℕ) (h10 : 10 ≤ minor) (h39 : minor ≤ 39) (d defaultDtype : D)
    (defaultInit kernel bias : F) :
    createParam defaultDtype defaultInit
      (initFnArgs (versionString 0 minor patch) (some d) (layerKwargs kernel bias))
      "kernel_init".toList = .error .typeError := by
  have h : pyStrLt (versionString 0 minor patch) "0.4.0".toList = true := by
    unfold versionString
    interval_cases minor <;> rfl
  unfold initFnArgs
  rw [h]
  rfl

/-- Non-vacuity: releases that exist. -/
example : (7 ≤ 8 ∧ 8 ≤ 9) ∧ (10 ≤ 10 ∧ 10 ≤ 39) ∧
    versionString 0 10 2 = "0.10.2".toList := by
  refine ⟨by norm_num, by norm_num, by decide⟩

end JVMC
