import Mathlib.Tactic.Module
import Verif.Lemmas.Tdvp
import Verif.Model.Stepper
import Verif.Spec.Stepper

/-!
# Lemmas about the integration steps
-/

namespace JVMC

open Spec

variable {M σ : Type} [AddCommGroup M] [Module ℝ M]

/-- What the right-hand side `f` on references has to do with `g` on values: it computes `g`, changes no
existing array and, if arrays are changed in place, returns a new array. -/
def Computes (inplace : Bool) (f : RRhs M σ) (g : VRhs M σ) : Prop :=
  ∀ r t k h s, r < h.length → ∃ r' l, f r t k (h, s) = (r', (h ++ l, (g (h.getD r 0) t k s).2)) ∧
    r' < (h ++ l).length ∧ (h ++ l).getD r' 0 = (g (h.getD r 0) t k s).1 ∧
    (inplace = true → h.length ≤ r')

/-- The cells of `h` other than `y` are unchanged in `h'`. -/
def Keeps (y : Option ℕ) (h h' : List M) : Prop :=
  h.length ≤ h'.length ∧ ∀ q < h.length, some q ≠ y → h'.getD q 0 = h.getD q 0

omit [Module ℝ M] in
theorem keeps_append (h l : List M) : Keeps none h (h ++ l) := by
  refine ⟨by simp, fun q hq _ => ?_⟩
  rw [List.getD_eq_getElem?_getD, List.getElem?_append_left hq, List.getD_eq_getElem?_getD]

omit [Module ℝ M] in
theorem addArr_spec (inplace : Bool) (y : ℕ) (v : M) (h : List M) (s : σ) (hy : y < h.length) :
    ∃ y' h', addArr inplace y v (h, s) = (y', (h', s)) ∧ y' < h'.length ∧
      h'.getD y' 0 = h.getD y 0 + v ∧ Keeps (if inplace then some y else none) h h' ∧
      (inplace = true → y' = y) := by
  cases inplace with
  | true =>
    refine ⟨y, _, rfl, by simpa using hy, ?_, ⟨by simp, fun q hq hne => ?_⟩, fun _ => rfl⟩
    · simp [List.getD_eq_getElem?_getD, hy]
    · have hne' : y ≠ q := fun h => hne (by simp [h])
      simp [List.getD_eq_getElem?_getD, hne']
  | false =>
    refine ⟨h.length, _, rfl, by simp, ?_, keeps_append _ _, fun h => by cases h⟩
    simp [List.getD_eq_getElem?_getD]

omit [Module ℝ M] in
theorem newArr_spec (v : M) (h : List M) (s : σ) :
    newArr v (h, s) = (h.length, (h ++ [v], s)) ∧ (h ++ [v]).getD h.length 0 = v ∧ Keeps none h (h ++ [v]) := by
  refine ⟨rfl, ?_, keeps_append _ _⟩
  simp [List.getD_eq_getElem?_getD]

omit [Module ℝ M] in
theorem rhs_spec (inplace : Bool) (f : RRhs M σ) (g : VRhs M σ) (hf : Computes inplace f g) (r : ℕ) (t : ℝ)
    (k : ℕ) (h : List M) (s : σ) (hr : r < h.length) :
    ∃ r' h', f r t k (h, s) = (r', (h', (g (h.getD r 0) t k s).2)) ∧ r' < h'.length ∧
      h'.getD r' 0 = (g (h.getD r 0) t k s).1 ∧ Keeps none h h' ∧ (inplace = true → h.length ≤ r') := by
  obtain ⟨r', l, h1, h2, h3, h4⟩ := hf r t k h s hr
  exact ⟨r', _, h1, h2, h3, keeps_append _ _, h4⟩

omit [Module ℝ M] in
theorem Keeps.get {y : ℕ} {inplace : Bool} {h h' : List M} (hk : Keeps (if inplace then some y else none) h h')
    (q : ℕ) (hq : q < h.length) (hne : inplace = true → q ≠ y) : h'.getD q 0 = h.getD q 0 := by
  apply hk.2 q hq
  cases inplace with
  | true =>
    intro h
    exact hne rfl (Option.some.inj h)
  | false => intro h; cases h

omit [Module ℝ M] in
theorem Keeps.get' {h h' : List M} (hk : Keeps none h h') (q : ℕ) (hq : q < h.length) :
    h'.getD q 0 = h.getD q 0 := hk.2 q hq (by intro h; cases h)

/-- One pass of the loop computes both increments. -/
theorem ahAttempt_eq (inplace : Bool) (f : RRhs M σ) (g : VRhs M σ) (hf : Computes inplace f g) (t : ℝ)
    (y₀ : ℕ) (dt : ℝ) (h : List M) (s : σ) (hy₀ : y₀ < h.length) :
    ∃ h', ahAttempt inplace f t y₀ dt (h, s) = ((heunPair g t dt (h.getD y₀ 0) s).1,
      (h', (heunPair g t dt (h.getD y₀ 0) s).2)) ∧ Keeps none h h' := by
  unfold ahAttempt
  simp only [bind, StateT.bind, pure, StateT.pure, readArr]
  obtain ⟨e1, v1, p1⟩ := newArr_spec (σ := σ) (h.getD y₀ 0) h s
  rw [e1]
  dsimp only
  generalize hh1 : h ++ [h.getD y₀ 0] = h1 at *
  have l1 : h1.length = h.length + 1 := by rw [← hh1]; simp
  obtain ⟨k0, h2, e2, q2, v2, p2, n2⟩ := rhs_spec inplace f g hf h.length t 0 h1 s (by omega)
  rw [e2]
  dsimp only
  rw [v1] at v2 ⊢
  generalize hg0 : g (h.getD y₀ 0) t 0 s = G0 at *
  obtain ⟨K0, s0⟩ := G0
  dsimp only at v2 ⊢
  have l2 := p2.1
  obtain ⟨y3, h3, e3, q3, v3, p3, n3⟩ := addArr_spec inplace h.length (dt • h2.getD k0 0) h2 s0 (by omega)
  rw [e3]
  dsimp only
  rw [p2.get' h.length (by omega), v1, v2] at v3
  have l3 := p3.1
  have k0_3 : h3.getD k0 0 = K0 := by
    rw [p3.get k0 (by omega) (fun hi => by have := n2 hi; omega), v2]
  have n3' : inplace = true → y3 ≠ k0 := fun hi => by have := n2 hi; have := n3 hi; omega
  obtain ⟨k1, h4, e4, q4, v4, p4, n4⟩ := rhs_spec inplace f g hf y3 (t + dt) 1 h3 s0 q3
  rw [e4]
  dsimp only
  rw [v3] at v4 ⊢
  generalize hg1 : g (h.getD y₀ 0 + dt • K0) (t + dt) 1 s0 = G1 at *
  obtain ⟨K1, s1⟩ := G1
  dsimp only at v4 ⊢
  have l4 := p4.1
  have q2' : k0 < h3.length := by omega
  have k0_4 : h4.getD k0 0 = K0 := by rw [p4.get' k0 q2', k0_3]
  rw [k0_4, v4]
  obtain ⟨y5, h5, e5, q5, v5, p5, n5⟩ := addArr_spec inplace y3 (-((1 / 2 * dt) • K0)) h4 s1 (by omega)
  rw [e5]
  dsimp only
  rw [p4.get' y3 q3, v3] at v5
  have l5 := p5.1
  have k0_5 : h5.getD k0 0 = K0 := by
    rw [p5.get k0 (by omega) (fun hi => (n3' hi).symm), k0_4]
  obtain ⟨k10, h6, e6, q6, v6, p6, n6⟩ := rhs_spec inplace f g hf y5 (t + 1 / 2 * dt) 2 h5 s1 q5
  rw [e6]
  dsimp only
  have hy5 : h.getD y₀ 0 + dt • K0 + -((1 / 2 * dt) • K0) = h.getD y₀ 0 + (dt / 2) • K0 := by module
  rw [v5, hy5] at v6 ⊢
  have ht : t + 1 / 2 * dt = t + dt / 2 := by ring
  rw [ht] at v6 ⊢
  generalize hg2 : g (h.getD y₀ 0 + (dt / 2) • K0) (t + dt / 2) 2 s1 = G2 at *
  obtain ⟨K10, s2⟩ := G2
  dsimp only at v6 ⊢
  have l6 := p6.1
  have k0_6 : h6.getD k0 0 = K0 := by rw [p6.get' k0 (by omega), k0_5]
  have y0_6 : h6.getD y₀ 0 = h.getD y₀ 0 := by
    rw [p6.get' y₀ (by omega), p5.get y₀ (by omega) (fun hi => by have := n3 hi; omega),
      p4.get' y₀ (by omega), p3.get y₀ (by omega) (fun hi => by omega), p2.get' y₀ (by omega),
      p1.get' y₀ hy₀]
  rw [k0_6, v6, y0_6]
  have hd : (1 / 4 * dt) = dt / 4 := by ring
  rw [hd]
  obtain ⟨e7, v7, p7⟩ := newArr_spec (σ := σ) (h.getD y₀ 0 + (dt / 4) • (K0 + K10)) h6 s2
  rw [e7]
  dsimp only
  generalize hh7 : h6 ++ [h.getD y₀ 0 + (dt / 4) • (K0 + K10)] = h7 at *
  have l7 : h7.length = h6.length + 1 := by rw [← hh7]; simp
  obtain ⟨k01, h8, e8, q8, v8, p8, n8⟩ := rhs_spec inplace f g hf h6.length (t + dt / 2) 3 h7 s2 (by omega)
  rw [e8]
  dsimp only
  rw [v7] at v8 ⊢
  generalize hg3 : g (h.getD y₀ 0 + (dt / 4) • (K0 + K10)) (t + dt / 2) 3 s2 = G3 at *
  obtain ⟨K01, s3⟩ := G3
  dsimp only at v8 ⊢
  have l8 := p8.1
  rw [v8]
  obtain ⟨y9, h9, e9, q9, v9, p9, n9⟩ := addArr_spec inplace h6.length ((1 / 2 * dt) • K01) h8 s3 (by omega)
  rw [e9]
  dsimp only
  rw [p8.get' h6.length (by omega), v7] at v9
  have l9 := p9.1
  have k01_9 : h9.getD k01 0 = K01 := by
    rw [p9.get k01 (by omega) (fun hi => by have := n8 hi; omega), v8]
  obtain ⟨k11, h10, e10, q10, v10, p10, n10⟩ := rhs_spec inplace f g hf y9 (t + dt) 4 h9 s3 q9
  rw [e10]
  dsimp only
  have hhalf : (1 / 2 * dt) = dt / 2 := by ring
  rw [hhalf] at v9 ⊢
  rw [v9] at v10 ⊢
  have l10 := p10.1
  rw [p10.get' k01 (by omega), k01_9, v10]
  refine ⟨h10, ?_, by omega, fun q hq _ => ?_⟩
  · unfold heunPair
    rw [hg0]
    dsimp only
    rw [hg1]
    dsimp only
    rw [hg2]
    dsimp only
    rw [hg3]
  · rw [p10.get' q (by omega), p9.get q (by omega) (fun hi => by omega), p8.get' q (by omega),
      p7.get' q (by omega), p6.get' q (by omega), p5.get q (by omega) (fun hi => by have := n3 hi; omega),
      p4.get' q (by omega), p3.get q (by omega) (fun hi => by omega), p2.get' q (by omega),
      p1.get' q hq]

/-! ## The factor on the time step -/

theorem factor_reject (x : ℝ) (h0 : 0 ≤ x) (h1 : x < 1) :
    ahFactor (.fin x) = some (max 0.2 (0.9 * x ^ (0.33333 : ℝ))) ∧
      max 0.2 (0.9 * x ^ (0.33333 : ℝ)) < 0.9 := by
  have hp : x ^ (0.33333 : ℝ) < 1 := Real.rpow_lt_one h0 h1 (by norm_num)
  have hlt : max 0.2 (0.9 * x ^ (0.33333 : ℝ)) < (0.9 : ℝ) := by
    apply max_lt
    · norm_num
    · nlinarith
  refine ⟨?_, hlt⟩
  unfold ahFactor
  have hm : (if (0.2 : ℝ) > 0.9 * x ^ (0.33333 : ℝ) then 0.2 else 0.9 * x ^ (0.33333 : ℝ))
      = max 0.2 (0.9 * x ^ (0.33333 : ℝ)) := by
    split_ifs with h
    · rw [max_eq_left h.le]
    · rw [max_eq_right (not_lt.mp h)]
  dsimp only
  rw [hm, if_neg]
  rw [not_lt]
  exact hlt.le.trans (by norm_num)

theorem factor_accept (x : ℝ) (h1 : 1 ≤ x) :
    ahFactor (.fin x) = some (min 2 (0.9 * x ^ (0.33333 : ℝ))) ∧ 0.9 ≤ min 2 (0.9 * x ^ (0.33333 : ℝ)) := by
  have hp : 1 ≤ x ^ (0.33333 : ℝ) := Real.one_le_rpow h1 (by norm_num)
  refine ⟨?_, le_min (by norm_num) (by nlinarith)⟩
  unfold ahFactor
  dsimp only
  have hc : ¬ (0.2 : ℝ) > 0.9 * x ^ (0.33333 : ℝ) := by rw [gt_iff_lt, not_lt]; nlinarith
  rw [if_neg hc]
  split_ifs with h
  · rw [min_eq_left h.le]
  · rw [min_eq_right (not_lt.mp h)]

/-- Unfolding a loop. -/
theorem whileLoop_step {S : Type} (cond : S → Bool) (body : S → S) (s : S) (h : cond s = true) :
    whileLoop cond body s = whileLoop cond body (body s) := by
  cases h1 : whileLoop cond body (body s) with
  | some s' =>
    obtain ⟨n, rfl, hc, hk⟩ := whileLoop_spec _ _ _ _ h1
    obtain ⟨s'', hs''⟩ := whileLoop_some cond body s ⟨n + 1, hc⟩
    obtain ⟨m, rfl, hc', hk'⟩ := whileLoop_spec _ _ _ _ hs''
    rw [hs'']
    congr 1
    have hm : m = n + 1 := by
      rcases lt_trichotomy m (n + 1) with hlt | heq | hgt
      · rcases m with _ | m
        · rw [Function.iterate_zero, id, h] at hc'
          cases hc'
        · have := hk m (by omega)
          rw [← Function.iterate_succ_apply, hc'] at this
          cases this
      · exact heq
      · have := hk' (n + 1) hgt
        rw [Function.iterate_succ_apply, hc] at this
        cases this
    rw [hm, Function.iterate_succ_apply]
  | none =>
    cases h2 : whileLoop cond body s with
    | none => rfl
    | some s' =>
      obtain ⟨n, rfl, hc, hk⟩ := whileLoop_spec _ _ _ _ h2
      rcases n with _ | n
      · rw [Function.iterate_zero, id, h] at hc
        cases hc
      · obtain ⟨s'', hs''⟩ := whileLoop_some cond body (body s) ⟨n, hc⟩
        rw [hs''] at h1
        cases h1

end JVMC
