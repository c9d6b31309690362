import Verif.Model.SearchEx
import Verif.Props.GroundState
import Verif.Props.Spectrum

/-!
# C144 — the ground state search of `examples/ex0`
-/

namespace JVMC

open Spec Matrix

section rows

variable {n : ℕ} {smp : Type}

/-- One pass: the parameters of `psi` are read, the TDVP object is called with them, they are changed by the update. -/
theorem searchPass_spec (env : TdvpEnv n smp) (cfg : TdvpCfg n) (r L : ℕ) (timeStep : ℝ) (p₀ : Params)
    (hp₀ : (flattenParams p₀).length = n + 1) (ops : List NqsOp) (hops : ∀ op ∈ ops, op.Fits p₀)
    (hinit : nqsRun p₀ ops ≠ none) (θ : Fin (n + 1) → ℝ)
    (hθ : (getParameters.call (nqsRun p₀ ops)).1 = .ok (some (List.ofFn θ)))
    (res : List (ℕ × Flt (ℝ × ℝ))) (at₀ : TdvpAttrs n) (sm₀ : smp) (k : ℕ)
    (x : List (ℕ × Flt (ℝ × ℝ)) × NqsState × TdvpAttrs n × smp)
    (h : searchPass env cfg r L timeStep (res, nqsRun p₀ ops, at₀, sm₀) k = .ok x) :
    ∃ u at₁ sm₁ e, (tdvpCall env cfg r (List.ofFn θ) 0 (some 0) sm₀ at₀).call (nqsRun p₀ ops)
        = (.ok (some u, at₁, sm₁), nqsRun p₀ ops) ∧ at₁.eloc0 = some e ∧
      x = (res ++ [(k, e.map fun e => (e.1.re / (L : ℝ), e.2 / (L : ℝ)))],
        nqsRun p₀ (ops ++ [.set (.vec (List.ofFn (θ + timeStep • u)))]), at₁, sm₁) ∧
      nqsRun p₀ (ops ++ [.set (.vec (List.ofFn (θ + timeStep • u)))]) ≠ none ∧
      (getParameters.call (nqsRun p₀ (ops ++ [.set (.vec (List.ofFn (θ + timeStep • u)))]))).1
        = .ok (some (List.ofFn (θ + timeStep • u))) := by
  unfold searchPass at h
  have hg : (tdvpApi env cfg r fun _ sm => Except.ok ((), sm)).getParams (nqsRun p₀ ops, at₀, sm₀) = .ok θ := by
    unfold tdvpApi
    dsimp only
    rw [hθ]
    simp only [List.length_ofFn, dite_true]
    congr 1
    funext i
    simp [-List.ofFn_succ]
  dsimp only at h
  rw [hg] at h
  simp only [bind, Except.bind, pure, Except.pure] at h
  have hres := fun a => c44_restores env cfg r (List.ofFn θ) 0 (some 0) sm₀ at₀ p₀ _ hops a
  cases hr : (tdvpApi env cfg r fun _ sm => Except.ok ((), sm)).rhs cfg.diagonalShift θ 0 (nqsRun p₀ ops, at₀, sm₀) with
  | error e => rw [hr] at h; cases h
  | ok y =>
    obtain ⟨u, w⟩ := y
    rw [hr] at h
    dsimp only at h
    unfold tdvpApi at hr
    dsimp only at hr
    generalize hc : (tdvpCall env cfg r (List.ofFn θ) 0 (some 0) sm₀ at₀).call (nqsRun p₀ ops) = c at *
    obtain ⟨a, st⟩ := c
    cases a with
    | error e => cases hr
    | ok z =>
      obtain ⟨ou, at₁, sm₁⟩ := z
      cases ou with
      | none => cases hr
      | some u₁ =>
        dsimp only at hr
        cases hr
        have hst := hres _ rfl
        dsimp only at hst
        subst hst
        -- `set_parameters`
        have happ : nqsRun p₀ (ops ++ [.set (.vec (List.ofFn (θ + timeStep • u)))])
            = ((setParameters (.vec (List.ofFn (θ + timeStep • u)))).call (nqsRun p₀ ops)).2 := by
          unfold nqsRun
          rw [List.foldl_append]
          rfl
        have hsg := c22_set_then_get p₀ ops hops hinit (List.ofFn (θ + timeStep • u)) (by simp [hp₀])
        rw [call_bind] at hsg
        cases hcs : (setParameters (.vec (List.ofFn (θ + timeStep • u)))).call (nqsRun p₀ ops) with
        | mk a b =>
          rw [hcs] at hsg happ
          cases a with
          | error e => cases hsg
          | ok y =>
            dsimp only at happ hsg
            have hs : (tdvpApi env cfg r fun _ sm => Except.ok ((), sm)).setParams (θ + timeStep • u)
                (nqsRun p₀ ops, at₁, sm₁) = .ok (b, at₁, sm₁) := by
              unfold tdvpApi
              dsimp only
              rw [hcs]
            rw [hs] at h
            dsimp only at h
            unfold searchRow at h
            cases he : at₁.eloc0 with
            | none => rw [he] at h; cases h
            | some e =>
              rw [he] at h
              dsimp only at h
              cases h
              refine ⟨u, at₁, sm₁, e, rfl, he, ?_, ?_, ?_⟩
              · rw [happ]
              · rw [happ]
                intro hb
                rw [hb] at hsg
                cases hsg
              · rw [happ]
                exact hsg

/-- C144: after every history of calls on `psi`, if the search of ex0 ends, then `res` has a row for every step, in order; row
`k` holds mean and variance per site that the TDVP object stores when it is called with the parameters `θ k` *before*
step `k`; each step adds `timeStep` times the returned update, and the parameters after the last step, `θ nSteps`, which
belong to no row, are those of `psi`. -/
theorem c144_rows (env : TdvpEnv n smp) (cfg : TdvpCfg n) (r L : ℕ) (timeStep : ℝ) (nSteps : ℕ) (p₀ : Params)
    (hp₀ : (flattenParams p₀).length = n + 1) (ops : List NqsOp) (hops : ∀ op ∈ ops, op.Fits p₀)
    (hinit : nqsRun p₀ ops ≠ none) (at₀ : TdvpAttrs n) (sm₀ : smp)
    (x : List (ℕ × Flt (ℝ × ℝ)) × NqsState × TdvpAttrs n × smp)
    (h : searchScript env cfg r L timeStep nSteps (nqsRun p₀ ops, at₀, sm₀) = .ok x) :
    ∃ (θ u : ℕ → Fin (n + 1) → ℝ) (e : ℕ → Flt (ℂ × ℝ)),
      (getParameters.call (nqsRun p₀ ops)).1 = .ok (some (List.ofFn (θ 0))) ∧
      x.1 = (List.range nSteps).map (fun k => (k, (e k).map fun e => (e.1.re / (L : ℝ), e.2 / (L : ℝ)))) ∧
      (∀ k < nSteps, θ (k + 1) = θ k + timeStep • u k ∧ ∃ sm₁ sm₂ at₁ at₂ ops', (∀ op ∈ ops', op.Fits p₀) ∧
        nqsRun p₀ ops' ≠ none ∧ (getParameters.call (nqsRun p₀ ops')).1 = .ok (some (List.ofFn (θ k))) ∧
        (tdvpCall env cfg r (List.ofFn (θ k)) 0 (some 0) sm₁ at₁).call (nqsRun p₀ ops')
          = (.ok (some (u k), at₂, sm₂), nqsRun p₀ ops') ∧ at₂.eloc0 = some (e k)) ∧
      (getParameters.call x.2.1).1 = .ok (some (List.ofFn (θ nSteps))) := by
  have main : ∀ (N : ℕ) (x : List (ℕ × Flt (ℝ × ℝ)) × NqsState × TdvpAttrs n × smp),
      searchScript env cfg r L timeStep N (nqsRun p₀ ops, at₀, sm₀) = .ok x →
      ∃ (θ u : ℕ → Fin (n + 1) → ℝ) (e : ℕ → Flt (ℂ × ℝ)),
        (getParameters.call (nqsRun p₀ ops)).1 = .ok (some (List.ofFn (θ 0))) ∧
        x.1 = (List.range N).map (fun k => (k, (e k).map fun e => (e.1.re / (L : ℝ), e.2 / (L : ℝ)))) ∧
        (∀ k < N, θ (k + 1) = θ k + timeStep • u k ∧ ∃ sm₁ sm₂ at₁ at₂ ops', (∀ op ∈ ops', op.Fits p₀) ∧
          nqsRun p₀ ops' ≠ none ∧ (getParameters.call (nqsRun p₀ ops')).1 = .ok (some (List.ofFn (θ k))) ∧
          (tdvpCall env cfg r (List.ofFn (θ k)) 0 (some 0) sm₁ at₁).call (nqsRun p₀ ops')
            = (.ok (some (u k), at₂, sm₂), nqsRun p₀ ops') ∧ at₂.eloc0 = some (e k)) ∧
        (getParameters.call x.2.1).1 = .ok (some (List.ofFn (θ N))) ∧
        ∃ ops', (∀ op ∈ ops', op.Fits p₀) ∧ nqsRun p₀ ops' ≠ none ∧ x.2.1 = nqsRun p₀ ops' := by
    intro N
    induction N with
    | zero =>
      intro x hx
      cases hx
      obtain ⟨q, hq⟩ : ∃ q : Fin (n + 1) → ℝ, (getParameters.call (nqsRun p₀ ops)).1 = .ok (some (List.ofFn q)) := by
        cases hst : nqsRun p₀ ops with
        | none => exact absurd hst hinit
        | some st =>
          have hwf := wf_run p₀ ops hops st hst
          have hl : (flattenParams st.params).length = n + 1 := by
            rw [flatten_length_params, hwf.2.2.1, hwf.2.2.2, ← flatten_length_params, hp₀]
          refine ⟨fun i => (flattenParams st.params)[i]'(by omega), ?_⟩
          rw [call_getParameters]
          dsimp only
          congr 2
          apply List.ext_getElem
          · simp [hl]
          · intro i h1 h2
            simp [-List.ofFn_succ]
      exact ⟨fun _ => q, fun _ => q, fun _ => none, hq, rfl, by simp, hq, ops, hops, hinit, rfl⟩
    | succ N ih =>
      intro x hx
      unfold searchScript at hx ih
      rw [List.range_succ, List.foldlM_append] at hx
      cases hy : (List.range N).foldlM (searchPass env cfg r L timeStep) ([], nqsRun p₀ ops, at₀, sm₀) with
      | error e => rw [hy] at hx; cases hx
      | ok y =>
        rw [hy] at hx
        obtain ⟨θ, u, e, hθ0, hrows, hk, hfin, ops', hops', hi', hy1⟩ := ih y hy
        obtain ⟨res, st, at₁, sm₁⟩ := y
        dsimp only at hrows hfin hy1
        subst hy1
        have hx' : searchPass env cfg r L timeStep (res, nqsRun p₀ ops', at₁, sm₁) N = .ok x := by
          cases hz : searchPass env cfg r L timeStep (res, nqsRun p₀ ops', at₁, sm₁) N with
          | error e => simp [bind, Except.bind, hz] at hx
          | ok z => simpa [bind, Except.bind, hz, pure, Except.pure] using hx
        obtain ⟨v, at₂, sm₂, d, hcall, hd, rfl, hne, hget⟩ :=
          searchPass_spec env cfg r L timeStep p₀ hp₀ ops' hops' hi' (θ N) hfin res at₁ sm₁ N x hx'
        refine ⟨fun k => if k ≤ N then θ k else θ N + timeStep • v, fun k => if k < N then u k else v,
          fun k => if k < N then e k else d, by simpa using hθ0, ?_, ?_, by simpa using hget, _, ?_, hne, rfl⟩
        · dsimp only
          rw [hrows, List.range_succ, List.map_append]
          congr 1
          · refine List.map_congr_left fun k hk => ?_
            rw [if_pos (List.mem_range.mp hk)]
          · simp
        · intro k hkN
          by_cases hlt : k < N
          · simp only [hlt, hlt.le, if_true, show k + 1 ≤ N from hlt]
            exact hk k hlt
          · obtain rfl : k = N := by omega
            simp only [lt_irrefl, le_refl, if_true, if_false, show ¬ (k + 1 ≤ k) by omega, true_and]
            exact ⟨sm₁, sm₂, at₁, at₂, ops', hops', hi', hfin, hcall, hd⟩
        · intro op hop
          rcases List.mem_append.1 hop with hop | hop
          · exact hops' op hop
          · rw [List.mem_singleton.1 hop]
            exact trivial
  obtain ⟨θ, u, e, h1, h2, h3, h4, -⟩ := main nSteps x h
  exact ⟨θ, u, e, h1, h2, h3, h4⟩

end rows

/-- C144: with exactly weighted samples, row `k` holds energy and variance per site of the state with the parameters before step `k`;
no recorded energy is below the ground state energy, and some level lies within the recorded standard deviation. -/
theorem c144_energies {C : Type} [Fintype C] [DecidableEq C] [Nonempty C] {kernel : C → List (C × ℂ)} {O : Matrix C C ℂ} {n : ℕ}
    {smp : Type} (logPsi : (Fin (n + 1) → ℝ) → C → ℂ) (env : TdvpEnv n smp) (r : ℕ)
    (henv : ExactlySampled kernel O logPsi env r) (cfg : TdvpCfg n) (L : ℕ) (hL : 0 < L) (timeStep : ℝ) (nSteps : ℕ) (p₀ : Params)
    (hp₀ : (flattenParams p₀).length = n + 1) (ops : List NqsOp) (hops : ∀ op ∈ ops, op.Fits p₀)
    (hinit : nqsRun p₀ ops ≠ none) (at₀ : TdvpAttrs n) (sm₀ : smp)
    (x : List (ℕ × Flt (ℝ × ℝ)) × NqsState × TdvpAttrs n × smp)
    (h : searchScript env cfg r L timeStep nSteps (nqsRun p₀ ops, at₀, sm₀) = .ok x) :
    ∃ (θ : ℕ → Fin (n + 1) → ℝ), (getParameters.call (nqsRun p₀ ops)).1 = .ok (some (List.ofFn (θ 0))) ∧
      (getParameters.call x.2.1).1 = .ok (some (List.ofFn (θ nSteps))) ∧
      x.1 = (List.range nSteps).map (fun k => (k, some ((expect O fun c => Complex.exp (logPsi (θ k) c)).re / (L : ℝ),
        (spread O fun c => Complex.exp (logPsi (θ k) c)) / (L : ℝ)))) ∧
      ∀ row ∈ x.1, ∃ E var : ℝ, row.2 = some (E, var) ∧
        (∀ e₀, (∀ e v, Level O e v → e₀ ≤ e) → e₀ / L ≤ E) ∧ ∃ e v, Level O e v ∧ |e - L * E| ≤ √(L * var) := by
  obtain ⟨θ, u, e, h0, hx, hk, hfin⟩ := c144_rows env cfg r L timeStep nSteps p₀ hp₀ ops hops hinit at₀ sm₀ x h
  have hL0 : (0 : ℝ) < L := by exact_mod_cast hL
  have key : ∀ k < nSteps, O.IsHermitian ∧ e k = some (expect O (fun c => Complex.exp (logPsi (θ k) c)),
      spread O fun c => Complex.exp (logPsi (θ k) c)) := by
    intro k hkn
    obtain ⟨-, sm₁, sm₂, at₁, at₂, ops', hops', hi', -, hcall, he⟩ := hk k hkn
    obtain ⟨hO, hel⟩ := c98_reported logPsi env r henv cfg p₀ hp₀ ops' hops' (θ k) 0 sm₁ sm₂ at₁ at₂ _ _ hcall hi'
    rw [he] at hel
    exact ⟨hO, Option.some.inj hel⟩
  have hrows : x.1 = (List.range nSteps).map (fun k => (k, some ((expect O fun c => Complex.exp (logPsi (θ k) c)).re / (L : ℝ),
      (spread O fun c => Complex.exp (logPsi (θ k) c)) / (L : ℝ)))) := by
    rw [hx]
    refine List.map_congr_left fun k hkn => ?_
    rw [(key k (List.mem_range.mp hkn)).2]
    rfl
  refine ⟨θ, h0, hfin, hrows, fun row hrow => ?_⟩
  rw [hrows] at hrow
  obtain ⟨k, hkn, rfl⟩ := List.mem_map.mp hrow
  have hO := (key k (List.mem_range.mp hkn)).1
  have hne : (fun c => Complex.exp (logPsi (θ k) c)) ≠ 0 := fun h0 =>
    Complex.exp_ne_zero _ (congrFun h0 (Classical.arbitrary C))
  refine ⟨_, _, rfl, fun e₀ he₀ => ?_, ?_⟩
  · exact div_le_div_of_nonneg_right (c98_variational hO _ hne e₀ he₀) hL0.le
  · obtain ⟨e, v, h1, h2⟩ := c98_level hO _ hne
    refine ⟨e, v, h1, ?_⟩
    rw [mul_div_cancel₀ _ hL0.ne', mul_div_cancel₀ _ hL0.ne']
    exact h2

/-- Case: one step for the spin of C98. -/
theorem tilt_script : ∃ x, searchScript tiltEnv tiltCfg 0 1 2 1 (nqsRun (.real [[Real.log 2]]) [.eval], {}, ()) = .ok x := by
  obtain ⟨u, at₁, -, hc, E, hE⟩ := tilt_call ()
  have hinit : nqsRun (.real [[Real.log 2]]) [.eval] ≠ none :=
    (c25_initialised_iff _ _).mpr ⟨.eval, List.mem_singleton_self _, rfl⟩
  obtain ⟨st, hst⟩ := Option.ne_none_iff_exists'.mp hinit
  have hw := wf_run _ _ (by simp [NqsOp.Fits]) st hst
  have hget : (getParameters.call (some st)).1 = .ok (some [Real.log 2]) := by
    rw [← hst]
    rfl
  obtain ⟨q, hq, -, -, hq3⟩ := paramUnflatten_ok st.realParams st.sizes
    (List.ofFn ((fun _ : Fin 1 => Real.log 2) + (2 : ℝ) • u)) (by rw [List.length_ofFn, hw.1, hw.2.1]; rfl)
  have hset : (setParameters (.vec (List.ofFn ((fun _ : Fin 1 => Real.log 2) + (2 : ℝ) • u)))).call (some st)
      = (.ok (), some { st with params := q }) := by
    rw [call_setVec, hq]
  refine ⟨([(0, some (E.re / ((1 : ℕ) : ℝ), 9 / 25 / ((1 : ℕ) : ℝ)))], some { st with params := q }, at₁, ()), ?_⟩
  rw [hst] at hc ⊢
  have h1 : (tdvpApi tiltEnv tiltCfg 0 fun _ sm => Except.ok ((), sm)).getParams (some st, {}, ())
      = .ok fun _ => Real.log 2 := by
    simp only [tdvpApi, hget]
    rw [dif_pos (by simp)]
    congr 1
    funext i
    rw [Fin.fin_one_eq_zero i]
    rfl
  have h2 : (tdvpApi tiltEnv tiltCfg 0 fun _ sm => Except.ok ((), sm)).rhs tiltCfg.diagonalShift (fun _ => Real.log 2) 0
      (some st, {}, ()) = .ok (u, (some st, at₁, ())) := by
    simp only [tdvpApi]
    rw [hc]
  have h3 : (tdvpApi tiltEnv tiltCfg 0 fun _ sm => Except.ok ((), sm)).setParams
      ((fun _ : Fin 1 => Real.log 2) + (2 : ℝ) • u) (some st, at₁, ())
      = .ok (some { st with params := q }, at₁, ()) := by
    simp only [tdvpApi]
    rw [hset]
  have h4 : searchPass tiltEnv tiltCfg 0 1 2 ([], some st, {}, ()) 0
      = .ok ([(0, some (E.re / ((1 : ℕ) : ℝ), 9 / 25 / ((1 : ℕ) : ℝ)))], some { st with params := q }, at₁, ()) := by
    simp only [searchPass, h1, h2, h3, searchRow, hE, bind, Except.bind]
    rfl
  unfold searchScript
  change (List.foldlM (searchPass tiltEnv tiltCfg 0 1 2) ([], some st, {}, ()) [0]) = _
  rw [List.foldlM_cons, h4]
  rfl

example : ∃ x : List (ℕ × Flt (ℝ × ℝ)) × NqsState × TdvpAttrs 0 × Unit, ∀ row ∈ x.1, ∃ E var : ℝ, row.2 = some (E, var) ∧
    (∀ e₀, (∀ e v, Level tiltMatrix e v → e₀ ≤ e) → e₀ / (1 : ℕ) ≤ E) ∧
      ∃ e v, Level tiltMatrix e v ∧ |e - (1 : ℕ) * E| ≤ √((1 : ℕ) * var) := by
  obtain ⟨x, hx⟩ := tilt_script
  obtain ⟨-, -, -, -, h⟩ := c144_energies tiltLog tiltEnv 0 tilt_sampled tiltCfg 1 one_pos 2 1 (.real [[Real.log 2]]) rfl [.eval]
    (by simp [NqsOp.Fits]) ((c25_initialised_iff _ _).mpr ⟨.eval, List.mem_singleton_self _, rfl⟩) {} () x hx
  exact ⟨x, h⟩

end JVMC
