import Verif.Spec.SpmdRun
import Verif.Lemmas.SpmdMore
import Verif.Props.Spmd
import Verif.Props.Accuracy
import Verif.Props.Resume
import Verif.Props.GroundState

/-!
# Lemmas for C105
-/

namespace JVMC

open Spec

variable {N : ℕ}

/-! ## The search, for every equation whose calls are in step -/

section search

variable {P O W Ws : Type} [AddCommGroup P] [Module ℝ P]

/-- The calls of the search are in step on all ranks, and rank `r` sees what `seq r` describes. -/
structure SearchInStep (inv : (Fin N → W) → Prop) (api : GsApiR P O W) (seq : Fin N → GsApi P O Ws)
    (view : (Fin N → W) → Fin N → Ws) : Prop where
  shift : ∀ r, (seq r).hasShift = api.hasShift
  setter : ∀ r, (seq r).hasSetter = api.hasSetter
  params : ∀ w, inv w → ∃ p, ∀ r, api.getParams (w r) = .ok p ∧ (seq r).getParams (view w r) = .ok p
  rhs : ∀ d p w, inv w → ∃ w', inv w' ∧
    ((∃ dp v, Lockstep (fun r => api.rhs d p 0 (w r)) (fun r => (some dp, w' r)) ∧
      ∀ r, (seq r).rhs d p 0 (view w r) = .ok (dp, view w' r) ∧ api.variance (w' r) = .ok v ∧
        (seq r).variance (view w' r) = .ok v) ∨
     (Lockstep (fun r => api.rhs d p 0 (w r)) (fun r => (none, w' r)) ∧
      ∀ r, (seq r).rhs d p 0 (view w r) = .error .noReturn))
  set : ∀ p w, inv w → ∃ w', inv w' ∧ ∀ r, api.setParams p (w r) = .ok (w' r) ∧
    (seq r).setParams p (view w r) = .ok (view w' r) ∧ api.variance (w' r) = api.variance (w r) ∧
    (seq r).variance (view w' r) = (seq r).variance (view w r)
  measure : ∀ w, inv w → ∃ o w', inv w' ∧ Lockstep (fun r => api.measure (w r)) (fun r => (o, w' r)) ∧
    ∀ r, (seq r).measure (view w r) = .ok (o, view w' r)

variable {inv : (Fin N → W) → Prop} {api : GsApiR P O W} {seq : Fin N → GsApi P O Ws}
  {view : (Fin N → W) → Fin N → Ws}

omit [AddCommGroup P] [Module ℝ P] in
theorem gsMeasure_ranks (h : SearchInStep inv api seq view) (record : Bool) (m : ℕ) (w : Fin N → W)
    (hw : inv w) (log : List (ℕ × O)) : ∃ w' log', inv w' ∧
      Lockstep (fun r => gsMeasureR api record m (w r) log) (fun r => (w' r, log')) ∧
      (∀ r, gsMeasure (seq r) record m (view w r) log = .ok (view w' r, log')) := by
  cases record with
  | false => exact ⟨w, log, hw, lockstep_pure _, fun r => rfl⟩
  | true =>
    obtain ⟨o, w', hw', l, hs⟩ := h.measure w hw
    refine ⟨w', log ++ [(m, o)], hw', ?_, fun r => ?_⟩
    · exact lockstep_seq l (lockstep_pure _)
    · unfold gsMeasure
      rw [hs r]
      rfl

theorem gsBody_ranks (h : SearchInStep inv api seq view) (stepSize : ℝ) (record : Bool) (m : ℕ) (varE : Flt ℝ)
    (delta : Option ℝ) (shift : ℝ) (w : Fin N → W) (hw : inv w) (log : List (ℕ × O))
    (hd : api.hasSetter = true → delta ≠ none) : ∃ w', inv w' ∧
      ((∃ varE' delta' shift' log', (api.hasSetter = true → delta' ≠ none) ∧
        Lockstep (fun r => gsBodyR api stepSize record ⟨m, varE, delta, shift, w r, log⟩)
          (fun r => some ⟨m + 1, varE', delta', shift', w' r, log'⟩) ∧
        ∀ r, gsBody (seq r) stepSize record ⟨m, varE, delta, shift, view w r, log⟩
          = .ok ⟨m + 1, varE', delta', shift', view w' r, log'⟩) ∨
      (Lockstep (fun r => gsBodyR api stepSize record ⟨m, varE, delta, shift, w r, log⟩) (fun _ => none) ∧
        (∀ r, gsBody (seq r) stepSize record ⟨m, varE, delta, shift, view w r, log⟩ = .error .noReturn) ∧
        ∃ d p w, inv w ∧ ∀ r, (seq r).rhs d p 0 (view w r) = .error .noReturn)) := by
  obtain ⟨p, hp⟩ := h.params w hw
  obtain ⟨w₁, hw₁, hcase⟩ := h.rhs shift p w hw
  have lp : Lockstep (fun r => Prog.lift (api.getParams (w r))) fun _ => p :=
    lockstep_lift _ _ fun r => (hp r).1
  rcases hcase with ⟨dp, v, l, hs⟩ | ⟨l, hs⟩
  · obtain ⟨w₂, hw₂, hset⟩ := h.set (p + stepSize • dp) w₁ hw₁
    obtain ⟨w₃, log', hw₃, lm, hm⟩ := gsMeasure_ranks h record (m + 1) w₂ hw₂ log
    have hv : ∀ r, api.variance (w₂ r) = .ok v := fun r => by rw [(hset r).2.2.1, (hs r).2.1]
    have hvs : ∀ r, (seq r).variance (view w₂ r) = .ok v := fun r => by rw [(hset r).2.2.2, (hs r).2.2]
    have hseq : ∀ r, gsBody (seq r) stepSize record ⟨m, varE, delta, shift, view w r, log⟩
        = if (seq r).hasSetter then
            match (generalizing := false) delta with
            | none => .error .unboundLocalError
            | some delta => .ok ⟨m + 1, v, some (0.95 * delta), 0.95 * delta, view w₃ r, log'⟩
          else .ok ⟨m + 1, v, delta, shift, view w₃ r, log'⟩ := by
      intro r
      unfold gsBody
      dsimp only
      rw [(hp r).2]
      change Except.bind ((seq r).rhs shift p 0 (view w r)) _ = _
      rw [(hs r).1]
      change Except.bind ((seq r).setParams (p + stepSize • dp) (view w₁ r)) _ = _
      rw [(hset r).2.1]
      change Except.bind ((seq r).variance (view w₂ r)) _ = _
      rw [hvs r]
      change Except.bind (gsMeasure (seq r) record (m + 1) (view w₂ r) log) _ = _
      rw [hm r]
      rfl
    have hl : ∀ s' : Fin N → GsState O W, Lockstep (fun r => (if api.hasSetter then
            match (generalizing := false) delta with
            | none => Prog.raise .unboundLocalError
            | some delta => return some ⟨m + 1, v, some (0.95 * delta), 0.95 * delta, w₃ r, log'⟩
          else return some ⟨m + 1, v, delta, shift, w₃ r, log'⟩ : Prog (Option (GsState O W))))
          (fun r => some (s' r)) →
        Lockstep (fun r => gsBodyR api stepSize record ⟨m, varE, delta, shift, w r, log⟩) fun r => some (s' r) := by
      intro s' hl
      exact lockstep_seq lp (lockstep_seq l (lockstep_seq (lockstep_lift _ _ fun r => (hset r).1)
        (lockstep_seq (lockstep_lift _ _ hv) (lockstep_seq lm hl))))
    refine ⟨w₃, hw₃, Or.inl ?_⟩
    cases hset' : api.hasSetter with
    | false =>
      refine ⟨v, delta, shift, log', (by simp), hl _ ?_, fun r => ?_⟩
      · simp only [hset']
        exact lockstep_pure _
      · rw [hseq r, h.setter r, hset']
        rfl
    | true =>
      cases delta with
      | none => exact absurd rfl (hd hset')
      | some d =>
        refine ⟨v, some (0.95 * d), 0.95 * d, log', (by simp), hl _ ?_, fun r => ?_⟩
        · simp only [hset', if_true]
          exact lockstep_pure _
        · rw [hseq r, h.setter r, hset']
          rfl
  · refine ⟨w₁, hw₁, Or.inr ⟨lockstep_seq lp (lockstep_seq l (lockstep_pure _)), fun r => ?_, shift, p, w, hw, hs⟩⟩
    unfold gsBody
    dsimp only
    rw [(hp r).2]
    change Except.bind ((seq r).rhs shift p 0 (view w r)) _ = _
    rw [hs r]
    rfl

theorem gsLoop_ranks (h : SearchInStep inv api seq view) (numSteps : ℤ) (tol stepSize : ℝ) (record : Bool)
    (fuel : ℕ) : ∀ (m : ℕ) (varE : Flt ℝ) (delta : Option ℝ) (shift : ℝ) (w : Fin N → W) (log : List (ℕ × O)),
    inv w → (api.hasSetter = true → delta ≠ none) → numSteps ≤ m + fuel → ∃ w', inv w' ∧
      ((∃ m' varE' delta' shift' log',
        Lockstep (fun r => gsLoopR api numSteps tol stepSize record fuel ⟨m, varE, delta, shift, w r, log⟩)
          (fun r => some ⟨m', varE', delta', shift', w' r, log'⟩) ∧
        ∀ r, gsLoop (seq r) numSteps tol stepSize record fuel ⟨m, varE, delta, shift, view w r, log⟩
          = .ok ⟨m', varE', delta', shift', view w' r, log'⟩) ∨
      (Lockstep (fun r => gsLoopR api numSteps tol stepSize record fuel ⟨m, varE, delta, shift, w r, log⟩)
          (fun _ => none) ∧
        (∀ r, gsLoop (seq r) numSteps tol stepSize record fuel ⟨m, varE, delta, shift, view w r, log⟩
          = .error .noReturn) ∧
        ∃ d p w, inv w ∧ ∀ r, (seq r).rhs d p 0 (view w r) = .error .noReturn)) := by
  have hcond : ∀ m varE delta shift (w : Fin N → W) (log : List (ℕ × O)) (r : Fin N),
      gsCond numSteps tol (⟨m, varE, delta, shift, w r, log⟩ : GsState O W)
        = gsCond numSteps tol (⟨m, varE, delta, shift, (), log⟩ : GsState O Unit) := fun _ _ _ _ _ _ _ => rfl
  have hcond' : ∀ m varE delta shift (w : Fin N → W) (log : List (ℕ × O)) (r : Fin N),
      gsCond numSteps tol (⟨m, varE, delta, shift, view w r, log⟩ : GsState O Ws)
        = gsCond numSteps tol (⟨m, varE, delta, shift, (), log⟩ : GsState O Unit) := fun _ _ _ _ _ _ _ => rfl
  induction fuel with
  | zero =>
    intro m varE delta shift w log hw hd hf
    have hc : gsCond numSteps tol (⟨m, varE, delta, shift, (), log⟩ : GsState O Unit) = false := by
      unfold gsCond
      rw [decide_eq_false (by simp only [Nat.cast_zero, add_zero] at hf; simpa using hf)]
      rfl
    refine ⟨w, hw, Or.inl ⟨m, varE, delta, shift, log, ?_, fun r => ?_⟩⟩
    · unfold gsLoopR
      simp only [hcond, hc]
      exact lockstep_pure _
    · unfold gsLoop
      rw [hcond', hc]
      rfl
  | succ fuel ih =>
    intro m varE delta shift w log hw hd hf
    cases hc : gsCond numSteps tol (⟨m, varE, delta, shift, (), log⟩ : GsState O Unit) with
    | false =>
      refine ⟨w, hw, Or.inl ⟨m, varE, delta, shift, log, ?_, fun r => ?_⟩⟩
      · unfold gsLoopR
        simp only [hcond, hc]
        exact lockstep_pure _
      · unfold gsLoop
        rw [hcond', hc]
        rfl
    | true =>
      obtain ⟨w₁, hw₁, hb⟩ := gsBody_ranks h stepSize record m varE delta shift w hw log hd
      rcases hb with ⟨varE', delta', shift', log', hd', lb, hbs⟩ | ⟨lb, hbs, hx⟩
      · obtain ⟨w₂, hw₂, hih⟩ := ih (m + 1) varE' delta' shift' w₁ log' hw₁ hd' (by push_cast at hf ⊢; omega)
        refine ⟨w₂, hw₂, ?_⟩
        have hs : ∀ r, gsLoop (seq r) numSteps tol stepSize record (fuel + 1) ⟨m, varE, delta, shift, view w r, log⟩
            = gsLoop (seq r) numSteps tol stepSize record fuel ⟨m + 1, varE', delta', shift', view w₁ r, log'⟩ := by
          intro r
          rw [gsLoop, hcond', hc, if_pos rfl, hbs r]
          rfl
        have hl : ∀ v : Fin N → Option (GsState O W), Lockstep (fun r => gsLoopR api numSteps tol stepSize record fuel
              ⟨m + 1, varE', delta', shift', w₁ r, log'⟩) v →
            Lockstep (fun r => gsLoopR api numSteps tol stepSize record (fuel + 1)
              ⟨m, varE, delta, shift, w r, log⟩) v := by
          intro v hv
          unfold gsLoopR
          simp only [hcond, hc, if_true]
          exact lockstep_seq lb hv
        rcases hih with ⟨m', varE'', delta'', shift'', log'', lr, hr⟩ | ⟨lr, hr, hx⟩
        · exact Or.inl ⟨m', varE'', delta'', shift'', log'', hl _ lr, fun r => by rw [hs r, hr r]⟩
        · exact Or.inr ⟨hl _ lr, fun r => by rw [hs r, hr r], hx⟩
      · refine ⟨w₁, hw₁, Or.inr ⟨?_, fun r => ?_, hx⟩⟩
        · unfold gsLoopR
          simp only [hcond, hc, if_true]
          exact lockstep_seq lb (lockstep_pure _)
        · rw [gsLoop, hcond', hc, if_pos rfl, hbs r]
          rfl

theorem search_ranks (h : SearchInStep inv api seq view) (hapi : api.hasSetter = true → api.hasShift = true)
    (numSteps : ℤ) (tol stepSize : ℝ) (record : Bool) (shift : ℝ) (w : Fin N → W) (hw : inv w) : ∃ w', inv w' ∧
      ((∃ m' varE' delta' shift' log',
        Lockstep (fun r => groundStateSearchR api numSteps tol stepSize record shift (w r))
          (fun r => some ⟨m', varE', delta', shift', w' r, log'⟩) ∧
        ∀ r, groundStateSearch (seq r) numSteps tol stepSize record shift (view w r)
          = .ok ⟨m', varE', delta', shift', view w' r, log'⟩) ∨
      (Lockstep (fun r => groundStateSearchR api numSteps tol stepSize record shift (w r)) (fun _ => none) ∧
        (∀ r, groundStateSearch (seq r) numSteps tol stepSize record shift (view w r) = .error .noReturn) ∧
        ∃ d p w, inv w ∧ ∀ r, (seq r).rhs d p 0 (view w r) = .error .noReturn)) := by
  obtain ⟨w₁, log, hw₁, lm, hm⟩ := gsMeasure_ranks h record 0 w hw []
  obtain ⟨w₂, hw₂, hl⟩ := gsLoop_ranks h numSteps tol stepSize record numSteps.toNat 0 (some 1)
    (if api.hasShift then some shift else none) shift w₁ log hw₁ (fun hs => by simp [hapi hs])
    (by simp only [Nat.cast_zero, zero_add]; omega)
  refine ⟨w₂, hw₂, ?_⟩
  have hs : ∀ r, groundStateSearch (seq r) numSteps tol stepSize record shift (view w r)
      = gsLoop (seq r) numSteps tol stepSize record numSteps.toNat
        ⟨0, some 1, if api.hasShift then some shift else none, shift, view w₁ r, log⟩ := by
    intro r
    unfold groundStateSearch
    simp only [hm r, h.shift r]
    rfl
  rcases hl with ⟨m', varE', delta', shift', log', lr, hr⟩ | ⟨lr, hr, hx⟩
  · exact Or.inl ⟨m', varE', delta', shift', log', lockstep_seq lm lr, fun r => by rw [hs r, hr r]⟩
  · exact Or.inr ⟨lockstep_seq lm lr, fun r => by rw [hs r, hr r], hx⟩

end search

/-! ## TDVP objects -/

section tdvp

variable {n : ℕ} {smp O : Type}

/-- The stored equation is that of the samples, whatever was stored before. -/
theorem call_eqn {smp : Type} (env : TdvpEnv n smp) (cfg : TdvpCfg n) (r : ℕ)
    (netP : List ℝ) (t : ℝ) (k : Option ℕ) (sm sm' : smp) (at₀ at₁ : TdvpAttrs n) (st : NqsInit) (st' : NqsState)
    (u : Flt (Fin (n + 1) → ℝ)) (p : Params) (hp : paramUnflatten st.realParams st.sizes netP = .ok p)
    (joint : World (ℝ × (Fin 1 → ℂ) × (Fin (n + 1) → ℂ)))
    (hm : env.measure p sm t = .ok (joint, sm')) (h1 : ∀ rk ∈ joint, rk ≠ [])
    (h2 : ∀ s ∈ allSamples joint, 0 ≤ s.1) (h3 : r < List.length joint)
    (h : (tdvpCall env cfg r netP t k sm at₀).call (some st) = (.ok (u, at₁, sm'), st')) :
    at₁.eqn = some (some (specEqn cfg (allSamples joint))) := by
  obtain ⟨q, joint₂, E, G, res, atS, p', hq, hm₂, hd, hs, _, _, hn, hz⟩ :=
    tdvpCall_ok env cfg r netP t k sm sm' at₀ at₁ st st' u h
  rw [hp] at hq
  obtain rfl := Except.ok.inj hq
  rw [hm] at hm₂
  obtain ⟨rfl, -⟩ := Prod.mk.inj (Except.ok.inj hm₂)
  have hi : TdvpInput joint r E G := ⟨h1, h2, h3, hd⟩
  obtain ⟨eq, e, sp, snr, heq, hsol⟩ := solve_attrs _ r _ at₀ atS res hs
  rw [hsol at₀] at hs
  have hA := (congrArg Prod.snd (Except.ok.inj hs)).symm
  dsimp only at hA
  have hspec := heq at₀
  rw [getTdvpEquation_eq cfg r joint hi.devices hi.weights hi.rank E G hi.data at₀] at hspec
  have hee : e = some (specEqn cfg (allSamples joint)) := by
    have := congrArg TdvpAttrs.eqn (congrArg Prod.snd (Except.ok.inj hspec))
    exact (Option.some.inj this).symm
  by_cases hk : k = some 0
  · obtain ⟨err, he, hf, ht⟩ := hz hk
    by_cases hcv : cfg.crossValidation = true
    · obtain ⟨res', atS', cv, hs', hu, ha⟩ := crossValidate_ok _ r E G _ _ at₁ u (ht hcv)
      have hs'' := hs'.symm.trans (hsol _)
      obtain ⟨-, hat⟩ := Prod.mk.inj (Except.ok.inj hs'')
      rw [ha, hat, hee]
    · obtain ⟨hu, ha⟩ := hf (by simpa using hcv)
      rw [ha, hA, hee]
  · rw [(hn hk).2, hA, hee]

variable [NeZero N] {inv : (Fin N → smp) → Prop} {env : TdvpEnv n (Fin N → smp)} {envR : TdvpEnvR n smp}

/-- A call on all ranks, for states of `psi` that agree. -/
theorem call_ranks (henv : MeasuresInStep inv env envR) (hall : MeasuresAlways inv env) (cfg : TdvpCfg n)
    (hc : 0 < cfg.pinvCutoff) (hc' : cfg.pinvCutoff < 1e-2) (ht : cfg.pinvTol < 1) (p₀ : Params)
    (hp₀ : (flattenParams p₀).length = n + 1) (y : Fin (n + 1) → ℝ) (t : ℝ) (k : Option ℕ) (psi : NqsState)
    (hpsi : IsNetwork p₀ psi) (sm : Fin N → smp) (hsm : inv sm) (at₀ : Fin N → TdvpAttrs n) :
    ∃ (u : Flt (Fin (n + 1) → ℝ)) (at₁ : Fin N → TdvpAttrs n) (sm' : Fin N → smp), inv sm' ∧
      Lockstep (fun r => tdvpCallR envR cfg (List.ofFn y) t k (sm r) (at₀ r) psi)
        (fun r => ((u, at₁ r, sm' r), psi)) ∧
      (∀ r : Fin N, (tdvpCall env cfg r.val (List.ofFn y) t k sm (at₀ r)).call psi
        = (.ok (u, at₁ r, sm'), psi)) ∧
      (∃ e, ∀ r, (at₁ r).eqn = e) ∧ (k = some 0 → ∃ e, ∀ r, (at₁ r).eloc0 = some e) := by
  obtain ⟨ops, hops, rfl⟩ := isNetwork_reached p₀ psi hpsi
  obtain ⟨st, hst, w1, w2, -⟩ := hpsi
  obtain ⟨p, hp, -⟩ := paramUnflatten_ok p₀.isReal p₀.sizes (List.ofFn y) (by
    rw [← flatten_length_params, hp₀, List.length_ofFn])
  obtain ⟨joint, sm', hm, h1, h2⟩ := hall p sm t hsm
  have hlen : List.length joint = N := by
    obtain ⟨-, w, rfl, -⟩ := henv p sm t joint sm' hsm hm
    simp
  choose u at₁ hcall using fun r : Fin N => c44_returns env cfg hc hc' ht r.val (List.ofFn y) t k sm sm' (at₀ r) p₀
    ops hops (by rw [hst]; simp) p hp joint hm h1 h2 (by rw [hlen]; exact r.isLt)
  rw [hst] at hcall ⊢
  obtain ⟨l, hinv, x, hx⟩ := tdvpCall_ranks henv cfg (List.ofFn y) t k sm sm' hsm at₀ at₁ st (fun _ => some st) u hcall
  simp only [hx] at l hcall
  have hp' : paramUnflatten st.realParams st.sizes (List.ofFn y) = .ok p := by rw [w1, w2, hp]
  refine ⟨x, at₁, sm', hinv, l, hcall, ⟨_, fun r => call_eqn env cfg r.val _ t k sm sm' (at₀ r) (at₁ r) st (some st) x p
    hp' joint hm h1 h2 (by rw [hlen]; exact r.isLt) (hcall r)⟩, ?_⟩
  rintro rfl
  exact ⟨_, fun r => (call_variance env cfg r.val _ t sm sm' (at₀ r) (at₁ r) st (some st) x p
    hp' joint hm h1 h2 (by rw [hlen]; exact r.isLt) (hcall r)).1⟩

/-- The states of the ranks agree. -/
def RanksAgree (p₀ : Params) (inv : (Fin N → smp) → Prop) (w : Fin N → RankState n smp) : Prop :=
  (∃ psi, IsNetwork p₀ psi ∧ ∀ r, (w r).1 = psi) ∧ inv (fun r => (w r).2.2)

omit [NeZero N] in
theorem rankParams_ok (p₀ : Params) (hp₀ : (flattenParams p₀).length = n + 1) (psi : NqsState)
    (hpsi : IsNetwork p₀ psi) : ∃ v, ∀ x : TdvpAttrs n × smp, rankParams (psi, x) = .ok v := by
  obtain ⟨p, rfl, h1, h2⟩ := (isNetwork_iff p₀ psi).mp hpsi
  have hl : (flattenParams p).length = n + 1 := by
    rw [flatten_length_params, h1, h2, ← flatten_length_params, hp₀]
  refine ⟨fun i => (flattenParams p)[i]'(by omega), fun x => ?_⟩
  unfold rankParams
  have : (getParameters.call (netState p₀ p)).1 = .ok (some (flattenParams p)) := rfl
  simp only [this]
  rw [dif_pos hl]

omit [NeZero N] in
theorem rankSet_ok (p₀ : Params) (hp₀ : (flattenParams p₀).length = n + 1) (psi : NqsState)
    (hpsi : IsNetwork p₀ psi) (y : Fin (n + 1) → ℝ) : ∃ psi', IsNetwork p₀ psi' ∧
      (setParameters (.vec (List.ofFn y))).call psi = (.ok (), psi') ∧
      ∀ x : TdvpAttrs n × smp, rankSet y (psi, x) = .ok (psi', x) := by
  obtain ⟨p, rfl, h1, h2⟩ := (isNetwork_iff p₀ psi).mp hpsi
  obtain ⟨q, -, q1, q2, q3⟩ := paramUnflatten_ok p₀.isReal p₀.sizes (List.ofFn y) (by
    rw [← flatten_length_params, hp₀, List.length_ofFn])
  have hs := netState_set p₀ p q _ q1 q2 q3
  refine ⟨netState p₀ q, (isNetwork_iff p₀ _).mpr ⟨q, rfl, q1, q2⟩, hs, fun x => ?_⟩
  unfold rankSet
  dsimp only
  rw [hs]

theorem tdvpApi_inStep (henv : MeasuresInStep inv env envR) (hall : MeasuresAlways inv env) (cfg : TdvpCfg n)
    (hc : 0 < cfg.pinvCutoff) (hc' : cfg.pinvCutoff < 1e-2) (ht : cfg.pinvTol < 1) (p₀ : Params)
    (hp₀ : (flattenParams p₀).length = n + 1)
    {meas : ℕ → Params → (Fin N → smp) → Except PyErr (O × (Fin N → smp))}
    {measR : Params → smp → Prog (O × smp)} (hobs : ObservesInStep inv meas measR) :
    SearchInStep (RanksAgree p₀ inv) (tdvpApiR envR cfg measR)
      (fun r => tdvpApi env cfg r.val (psiMeasure (meas r.val)))
      (fun w r => ((w r).1, (w r).2.1, fun r' => (w r').2.2)) where
  shift _ := rfl
  setter _ := rfl
  params w hw := by
    obtain ⟨⟨psi, hpsi, hw1⟩, -⟩ := hw
    obtain ⟨v, hv⟩ := rankParams_ok (smp := smp) p₀ hp₀ psi hpsi
    refine ⟨v, fun r => ⟨?_, ?_⟩⟩
    · have := hv (w r).2
      rw [← hw1 r] at this
      exact this
    · have := hv (w r).2
      rw [← hw1 r] at this
      exact this
  rhs d y w hw := by
    obtain ⟨⟨psi, hpsi, hw1⟩, hsm⟩ := hw
    obtain ⟨u, at₁, sm', hinv, l, hcall, -, hel⟩ := call_ranks henv hall { cfg with diagonalShift := d } hc hc' ht p₀ hp₀
      y 0 (some 0) psi hpsi (fun r => (w r).2.2) hsm (fun r => (w r).2.1)
    obtain ⟨e, he⟩ := hel rfl
    refine ⟨fun r => (psi, at₁ r, sm' r), ⟨⟨psi, hpsi, fun _ => rfl⟩, hinv⟩, ?_⟩
    have hl : Lockstep (fun r => (tdvpApiR envR cfg measR).rhs d y 0 (w r)) fun r => (u, (psi, at₁ r, sm' r)) := by
      change Lockstep (fun r => (tdvpCallR envR _ (List.ofFn y) 0 (some 0) (w r).2.2 (w r).2.1 (w r).1 >>= fun x =>
        pure (x.1.1, (x.2, x.1.2.1, x.1.2.2)) : Prog _)) _
      simp only [hw1]
      exact lockstep_seq l (lockstep_pure _)
    cases u with
    | none =>
      refine Or.inr ⟨hl, fun r => ?_⟩
      have := hcall r
      unfold tdvpApi
      dsimp only
      rw [hw1 r, this]
    | some dp =>
      refine Or.inl ⟨dp, e.map Prod.snd, hl, fun r => ⟨?_, ?_, ?_⟩⟩
      · have := hcall r
        unfold tdvpApi
        dsimp only
        rw [hw1 r, this]
      · change (match (at₁ r).eloc0 with
          | none => Except.error PyErr.attributeError
          | some x => .ok (x.map Prod.snd)) = _
        rw [he r]
      · change (match (at₁ r).eloc0 with
          | none => Except.error PyErr.attributeError
          | some x => .ok (x.map Prod.snd)) = _
        rw [he r]
  set y w hw := by
    obtain ⟨⟨psi, hpsi, hw1⟩, hsm⟩ := hw
    obtain ⟨psi', hpsi', hs, hset⟩ := rankSet_ok (smp := smp) p₀ hp₀ psi hpsi y
    refine ⟨fun r => (psi', (w r).2), ⟨⟨psi', hpsi', fun _ => rfl⟩, hsm⟩, fun r => ⟨?_, ?_, rfl, rfl⟩⟩
    · have := hset (w r).2
      rw [← hw1 r] at this
      exact this
    · unfold tdvpApi
      dsimp only
      rw [hw1 r, hs]
  measure w hw := by
    obtain ⟨⟨psi, hpsi, hw1⟩, hsm⟩ := hw
    obtain ⟨p, rfl, h1, h2⟩ := (isNetwork_iff p₀ psi).mp hpsi
    obtain ⟨o, sm', hinv, hm, l⟩ := hobs p (fun r => (w r).2.2) hsm
    refine ⟨o, fun r => (netState p₀ p, (w r).2.1, sm' r), ⟨⟨_, hpsi, fun _ => rfl⟩, hinv⟩, ?_, fun r => ?_⟩
    · change Lockstep (fun r => rankMeasure measR (w r)) _
      unfold rankMeasure
      simp only [hw1]
      exact lockstep_seq l (lockstep_pure _)
    · change Except.bind (psiMeasure (meas r.val) (w r).1 fun r' => (w r').2.2) _ = _
      rw [hw1 r]
      change Except.bind (meas r.val p fun r' => (w r').2.2) _ = _
      rw [hm r]
      rfl

end tdvp

/-! ## Steppers -/

section steppers

variable {M σ : Type} [AddCommGroup M] [Module ℝ M]

/-! The stages, and the same computation on a single process -/

variable {W V : Type}

/-- All ranks lose their state. -/
def Fail {A : Type} (p : Fin N → Prog (A × Option W)) : Prop := ∃ a, Lockstep p fun _ => (a, none)

/-- All ranks return the same as `seq`; `seq` returns nothing when one of the two results is missing. -/
def StepSim {B C : Type} (agree : (Fin N → W) → Prop) (view : (Fin N → W) → Fin N → V) (pack : B → V → C)
    (p : Fin N → Prog (Option B × Option W)) (seq : Fin N → Option C) : Prop :=
  (∃ b w, agree w ∧ Lockstep p (fun r => (some b, some (w r))) ∧ ∀ r, seq r = some (pack b (view w r))) ∨
  (∃ (o : Option B) (s : Fin N → Option W), Lockstep p (fun r => (o, s r)) ∧ (o = none ∨ ∀ r, s r = none) ∧
    ∀ r, seq r = none)

/-- The right-hand side on all ranks and on a single process. -/
structure RhsSim (agree : (Fin N → W) → Prop) (view : (Fin N → W) → Fin N → V) (f : RhsR M (Option W))
    (g : Fin N → M → ℝ → ℕ → V → Option (M × V)) : Prop where
  call : ∀ y t k w, agree w →
    (∃ u w', agree w' ∧ Lockstep (fun r => f y t k (some (w r))) (fun r => (u, some (w' r))) ∧
      ∀ r, g r y t k (view w r) = some (u, view w' r)) ∨
    (∃ u, Lockstep (fun r => f y t k (some (w r))) (fun _ => (u, none)) ∧ ∀ r, g r y t k (view w r) = none)
  lost : ∀ y t k, f y t k none = pure (0, none)

variable {agree : (Fin N → W) → Prop} {view : (Fin N → W) → Fin N → V} {f : RhsR M (Option W)}
  {g : Fin N → M → ℝ → ℕ → V → Option (M × V)}

omit [Module ℝ M] in
theorem fail_call {A : Type} (h : RhsSim agree view f g) (y : M) (t : ℝ) (k : ℕ)
    {K : M × Option W → Prog (A × Option W)} (hK : Fail fun _ : Fin N => K (0, none)) :
    Fail fun _ : Fin N => f y t k none >>= K := by
  rw [h.lost]
  exact hK

omit [Module ℝ M] in
theorem sim_call {B C : Type} {pack : B → V → C} (h : RhsSim agree view f g) (y : M) (t : ℝ) (k : ℕ) (w : Fin N → W) (hw : agree w)
    {K : M × Option W → Prog (Option B × Option W)} {L : Fin N → M × V → Option C}
    (hK : ∀ u w', agree w' → StepSim agree view pack (fun r => K (u, some (w' r))) fun r => L r (u, view w' r))
    (hn : ∀ u, Fail fun _ : Fin N => K (u, none)) :
    StepSim agree view pack (fun r => f y t k (some (w r)) >>= K) fun r => (g r y t k (view w r)).bind (L r) := by
  rcases h.call y t k w hw with ⟨u, w', hw', l, hs⟩ | ⟨u, l, hs⟩
  · simp only [hs, Option.bind_some]
    rcases hK u w' hw' with ⟨b, w'', h1, h2, h3⟩ | ⟨o, s, h1, h2, h3⟩
    · exact Or.inl ⟨b, w'', h1, lockstep_seq l h2, h3⟩
    · exact Or.inr ⟨o, s, lockstep_seq l h1, h2, h3⟩
  · obtain ⟨a, ha⟩ := hn u
    exact Or.inr ⟨a, _, lockstep_seq l ha, Or.inr fun _ => rfl, fun r => by simp only [hs]; rfl⟩

theorem ahLoopS_fail (h : RhsSim agree view f g) (obj : AHeun) (norm : Option W → M → ℝ) (t : ℝ) (y : M)
    (passes : ℕ) : ∀ dt, Fail fun _ : Fin N => ahLoopSR obj norm t f y passes dt none := by
  induction passes with
  | zero => exact fun dt => ⟨none, lockstep_pure _⟩
  | succ passes ih =>
    intro dt
    unfold ahLoopSR
    refine fail_call h _ _ _ (fail_call h _ _ _ (fail_call h _ _ _ (fail_call h _ _ _ (fail_call h _ _ _ ?_))))
    dsimp only
    split
    · exact ih _
    · exact ⟨_, lockstep_pure _⟩

theorem ahLoopS_sim (h : RhsSim agree view f g) (obj : AHeun) {norm : Option W → M → ℝ} {normV : V → M → ℝ}
    (hn : ∀ w, agree w → ∃ ν, (∀ r, norm (some (w r)) = ν) ∧ ∀ r, normV (view w r) = ν) (t : ℝ) (y : M)
    (passes : ℕ) : ∀ (dt : ℝ) (w : Fin N → W), agree w →
      StepSim agree view (fun b v => (b.1, b.2.1, b.2.2, v))
        (fun r => ahLoopSR obj norm t f y passes dt (some (w r)))
        fun r => adapt (g r) normV obj t y passes dt (view w r) := by
  induction passes with
  | zero => exact fun dt w hw => Or.inr ⟨none, fun r => some (w r), lockstep_pure _, Or.inl rfl, fun r => rfl⟩
  | succ passes ih =>
    intro dt w hw
    have fin : ∀ (dy1 dy0 : M) , Fail fun _ : Fin N =>
        (match (Num.quot obj.tolerance (norm none (dy1 - dy0))).below 1,
            (ahFactor (Num.quot obj.tolerance (norm none (dy1 - dy0)))).map
              fun tmp => if dt * tmp > obj.maxStep then obj.maxStep else dt * tmp with
          | true, some d => ahLoopSR obj norm t f y passes d none
          | _, _ => pure (some (y + dy1, dt, (ahFactor (Num.quot obj.tolerance (norm none (dy1 - dy0)))).map
              fun tmp => if dt * tmp > obj.maxStep then obj.maxStep else dt * tmp), none) :
          Prog (Option (M × ℝ × Flt ℝ) × Option W)) := by
      intro dy1 dy0
      split
      · exact ahLoopS_fail h obj norm t y passes _
      · exact ⟨_, lockstep_pure _⟩
    unfold ahLoopSR adapt
    simp only [Option.bind_eq_bind]
    refine sim_call h _ _ _ w hw (fun k0 w1 hw1 => ?_) fun k0 => ?_
    swap
    · exact fail_call h _ _ _ (fail_call h _ _ _ (fail_call h _ _ _ (fail_call h _ _ _ (fin _ _))))
    dsimp only
    refine sim_call h _ _ _ w1 hw1 (fun k1 w2 hw2 => ?_) fun k1 => ?_
    swap
    · exact fail_call h _ _ _ (fail_call h _ _ _ (fail_call h _ _ _ (fin _ _)))
    have e1 : y + dt • k0 - (dt / 2) • k0 = y + (dt / 2) • k0 := by
      module
    have e2 : t + (1 / 2) * dt = t + dt / 2 := by ring
    have e3 : ∀ k : M, ((1 / 4 : ℝ) * dt) • k = (dt / 4) • k := fun k => by congr 1; ring
    have e4 : ∀ k : M, ((1 / 2 : ℝ) * dt) • k = (dt / 2) • k := fun k => by congr 1; ring
    dsimp only
    simp only [e2, e3, e4] at fin ⊢
    simp only [e1]
    refine sim_call h _ _ _ w2 hw2 (fun k10 w3 hw3 => ?_) fun k10 => ?_
    swap
    · exact fail_call h _ _ _ (fail_call h _ _ _ (fin _ _))
    dsimp only
    refine sim_call h _ _ _ w3 hw3 (fun k01 w4 hw4 => ?_) fun k01 => ?_
    swap
    · exact fail_call h _ _ _ (fin _ _)
    dsimp only
    refine sim_call h _ _ _ w4 hw4 (fun k11 w5 hw5 => ?_) fun k11 => fin _ _
    obtain ⟨ν, hν, hν'⟩ := hn w5 hw5
    dsimp only
    simp only [hν, hν']
    have e5 : y + (dt / 4) • (k0 + k10) + (dt / 4) • (k01 + k11) - (y + (dt / 2) • (k0 + k1))
        = (dt / 4) • (k0 + k10) + (dt / 4) • (k01 + k11) - (dt / 2) • (k0 + k1) := by abel
    have e6 : (fun c => min (dt * c) obj.maxStep)
        = fun tmp => if dt * tmp > obj.maxStep then obj.maxStep else dt * tmp := by
      funext c
      split
      · exact min_eq_right (by linarith)
      · exact min_eq_left (by linarith)
    rw [e5, e6, add_assoc y]
    set fe := Num.quot obj.tolerance (ν ((dt / 4) • (k0 + k10) + (dt / 4) • (k01 + k11) - (dt / 2) • (k0 + k1)))
    set dt' := (ahFactor fe).map fun tmp => if dt * tmp > obj.maxStep then obj.maxStep else dt * tmp
    cases h1 : fe.below 1 with
    | false => exact Or.inl ⟨_, w5, hw5, lockstep_pure _, fun r => rfl⟩
    | true =>
      cases h2 : dt' with
      | none => exact Or.inl ⟨_, w5, hw5, lockstep_pure _, fun r => rfl⟩
      | some d => exact ih d w5 hw5

theorem step_sim (h : RhsSim agree view f g) {norm : Option W → M → ℝ} {normV : V → M → ℝ}
    (hn : ∀ w, agree w → ∃ ν, (∀ r, norm (some (w r)) = ν) ∧ ∀ r, normV (view w r) = ν) (t : ℝ) (y : M)
    (w : Fin N → W) (hw : agree w) (stepper : StepperR) :
    StepSim agree view (fun b v => (b.1, b.2.1, b.2.2, v)) (fun r => stepR norm t f y (some (w r)) stepper)
      fun r => oneStep (g r) normV t y (view w r) stepper := by
  cases stepper with
  | euler dt =>
    have e : (fun r => stepR norm t f y (some (w r)) (.euler dt)) = fun r => f y t 0 (some (w r)) >>=
        fun x => pure (some (y + dt • x.1, dt, .euler dt), x.2) := funext fun r => prog_bind_assoc _ _ _
    rw [e]
    simp only [oneStep, Option.bind_eq_bind]
    refine sim_call h _ _ _ w hw (fun k w' hw' => ?_) fun k => ⟨_, lockstep_pure _⟩
    exact Or.inl ⟨(y + dt • k, dt, .euler dt), w', hw', lockstep_pure _, fun r => rfl⟩
  | heun dt =>
    have e : (fun r => stepR norm t f y (some (w r)) (.heun dt)) = fun r => f y t 0 (some (w r)) >>=
        fun x => f (y + dt • x.1) (t + dt) 1 x.2 >>=
        fun x' => pure (some (y + ((1 / 2 : ℝ) * dt) • (x.1 + x'.1), dt, .heun dt), x'.2) := by
      funext r
      refine (prog_bind_assoc _ _ _).trans (congrArg _ (funext fun x => prog_bind_assoc _ _ _))
    rw [e]
    simp only [oneStep, Option.bind_eq_bind]
    refine sim_call h _ _ _ w hw (fun k0 w1 hw1 => ?_) fun k0 => fail_call h _ _ _ ⟨_, lockstep_pure _⟩
    dsimp only
    refine sim_call h _ _ _ w1 hw1 (fun k1 w2 hw2 => ?_) fun k1 => ⟨_, lockstep_pure _⟩
    refine Or.inl ⟨(y + ((1 / 2 : ℝ) * dt) • (k0 + k1), dt, .heun dt), w2, hw2, lockstep_pure _, fun r => ?_⟩
    have : dt / 2 = 1 / 2 * dt := by ring
    simp only [this]
  | adaptive obj passes =>
    simp only [stepR, oneStep, Option.bind_eq_bind]
    rcases ahLoopS_sim h obj hn t y passes obj.dt w hw with ⟨⟨y', d, d'⟩, w', hw', l, hs⟩ | ⟨o, s, l, ho, hs⟩
    · simp only [hs]
      cases d' with
      | none => exact Or.inr ⟨_, _, lockstep_seq l (lockstep_pure _), Or.inl rfl, fun r => rfl⟩
      | some d' => exact Or.inl ⟨_, w', hw', lockstep_seq l (lockstep_pure _), fun r => rfl⟩
    · simp only [hs]
      rcases ho with rfl | ho
      · exact Or.inr ⟨_, _, lockstep_seq l (lockstep_pure _), Or.inl rfl, fun r => rfl⟩
      · obtain rfl : s = fun _ => none := funext ho
        match o with
        | none => exact Or.inr ⟨_, _, lockstep_seq l (lockstep_pure _), Or.inl rfl, fun r => rfl⟩
        | some (y', d, none) => exact Or.inr ⟨_, _, lockstep_seq l (lockstep_pure _), Or.inl rfl, fun r => rfl⟩
        | some (y', d, some d') =>
          exact Or.inr ⟨_, _, lockstep_seq l (lockstep_pure _), Or.inr fun _ => rfl, fun r => rfl⟩

end steppers

/-! ## Time evolution -/

section evolution

variable [NeZero N] {n : ℕ} {smp O : Type} {inv : (Fin N → smp) → Prop} {env : TdvpEnv n (Fin N → smp)}
  {envR : TdvpEnvR n smp}

/-- Also the stored equations agree. -/
def EvoAgree (p₀ : Params) (inv : (Fin N → smp) → Prop) (w : Fin N → RankState n smp) : Prop :=
  RanksAgree p₀ inv w ∧ ∃ e, ∀ r, (w r).2.1.eqn = e

/-- What a single process sees of the ranks. -/
def rankView (w : Fin N → RankState n smp) (r : Fin N) : RankState n (Fin N → smp) :=
  ((w r).1, (w r).2.1, fun r' => (w r').2.2)

theorem tdvpRhs_sim (henv : MeasuresInStep inv env envR) (hall : MeasuresAlways inv env) (cfg : TdvpCfg n)
    (hc : 0 < cfg.pinvCutoff) (hc' : cfg.pinvCutoff < 1e-2) (ht : cfg.pinvTol < 1) (p₀ : Params)
    (hp₀ : (flattenParams p₀).length = n + 1) :
    RhsSim (EvoAgree p₀ inv) rankView (tdvpRhsR envR cfg) fun r => evaluate env cfg r.val where
  call := by
    rintro y t k w ⟨⟨⟨psi, hpsi, hw1⟩, hsm⟩, -⟩
    obtain ⟨u, at₁, sm', hinv, l, hseq, heq, -⟩ := call_ranks henv hall cfg hc hc' ht p₀ hp₀
      y t (some k) psi hpsi (fun r => (w r).2.2) hsm (fun r => (w r).2.1)
    unfold tdvpRhsR evaluate rankView
    simp only [hw1, hseq]
    cases u with
    | none => exact Or.inr ⟨0, lockstep_seq l (lockstep_pure _), fun r => rfl⟩
    | some u =>
      exact Or.inl ⟨u, fun r => (psi, at₁ r, sm' r), ⟨⟨⟨psi, hpsi, fun _ => rfl⟩, hinv⟩, heq⟩,
        lockstep_seq l (lockstep_pure _), fun r => rfl⟩
  lost _ _ _ := rfl

omit [NeZero N] in
theorem attrNorm_agree (p₀ : Params) (norm : Option (Flt (TdvpEqn n)) → (Fin (n + 1) → ℝ) → ℝ)
    (w : Fin N → RankState n smp) (hw : EvoAgree p₀ inv w) :
    ∃ ν, (∀ r, attrNorm norm (some (w r)) = ν) ∧ ∀ r, norm (rankView w r).2.1.eqn = ν := by
  obtain ⟨-, e, he⟩ := hw
  exact ⟨norm e, fun r => by unfold attrNorm; simp only [Option.bind_some, he],
    fun r => by unfold rankView; simp only [he]⟩

omit [NeZero N] in
theorem rankMeasure_ranks (p₀ : Params) {meas : ℕ → Params → (Fin N → smp) → Except PyErr (O × (Fin N → smp))}
    {measR : Params → smp → Prog (O × smp)} (hobs : ObservesInStep inv meas measR) (w : Fin N → RankState n smp)
    (hw : EvoAgree p₀ inv w) : ∃ (o : O) (sm' : Fin N → smp), EvoAgree p₀ inv (fun r => ((w r).1, (w r).2.1, sm' r)) ∧
      Lockstep (fun r => rankMeasure measR (w r)) (fun r => (o, ((w r).1, (w r).2.1, sm' r))) ∧
      ∀ r : Fin N, psiMeasure (meas r.val) (w r).1 (fun r' => (w r').2.2) = .ok (o, sm') := by
  obtain ⟨⟨⟨psi, hpsi, hw1⟩, hsm⟩, heq⟩ := hw
  obtain ⟨p, rfl, h1, h2⟩ := (isNetwork_iff p₀ psi).mp hpsi
  obtain ⟨o, sm', hinv, hm, l⟩ := hobs p (fun r => (w r).2.2) hsm
  refine ⟨o, sm', ⟨⟨⟨_, hpsi, hw1⟩, hinv⟩, heq⟩, ?_, fun r => ?_⟩
  · unfold rankMeasure
    simp only [hw1]
    exact lockstep_seq l (lockstep_pure _)
  · rw [hw1]
    exact hm r

/-- The results of the ranks, and of a single process. -/
def EvoSim (v : Fin N → Option (EvoState O (RankState n smp)))
    (seq : Fin N → Option (EvoState O (RankState n (Fin N → smp)))) : Prop :=
  SameEvolution v ∧ ∃ sm' : Fin N → smp, ∀ r, (v r = none ∧ seq r = none) ∨
    ∃ s, v r = some s ∧ s.w.2.2 = sm' r ∧ seq r = some ⟨s.t, s.stepper, (s.w.1, s.w.2.1, sm'), s.log⟩

theorem evolve_ranks (henv : MeasuresInStep inv env envR) (hall : MeasuresAlways inv env) (cfg : TdvpCfg n)
    (hc : 0 < cfg.pinvCutoff) (hc' : cfg.pinvCutoff < 1e-2) (ht : cfg.pinvTol < 1) (p₀ : Params)
    (hp₀ : (flattenParams p₀).length = n + 1)
    (norm : Option (Flt (TdvpEqn n)) → (Fin (n + 1) → ℝ) → ℝ)
    {meas : ℕ → Params → (Fin N → smp) → Except PyErr (O × (Fin N → smp))}
    {measR : Params → smp → Prog (O × smp)} (hobs : ObservesInStep inv meas measR) (tmax : ℝ) (passes : ℕ) :
    ∀ (t : ℝ) (stepper : StepperR) (w : Fin N → RankState n smp) (log : List (ℝ × O)), EvoAgree p₀ inv w →
      ∃ v, EvoSim v (fun r => evolution env cfg r.val norm (meas r.val) tmax passes
          ⟨t, stepper, rankView w r, log⟩) ∧
        Lockstep (fun r => evolveR envR cfg norm measR tmax passes ⟨t, stepper, w r, log⟩) v := by
  have stay : ∀ (t : ℝ) (stepper : StepperR) (w : Fin N → RankState n smp) (log : List (ℝ × O)), EvoAgree p₀ inv w →
      EvoSim (fun r => some ⟨t, stepper, w r, log⟩) fun r => some ⟨t, stepper, rankView w r, log⟩ := by
    intro t stepper w log hw
    obtain ⟨⟨⟨psi, -, hw1⟩, -⟩, -⟩ := hw
    exact ⟨Or.inr ⟨t, stepper, psi, log, fun r => ⟨_, rfl, rfl, rfl, hw1 r, rfl⟩⟩,
      fun r => (w r).2.2, fun r => Or.inr ⟨_, rfl, rfl, rfl⟩⟩
  induction passes with
  | zero =>
    intro t stepper w log hw
    exact ⟨_, stay t stepper w log hw, lockstep_pure _⟩
  | succ passes ih =>
    intro t stepper w log hw
    unfold evolveR evolution
    dsimp only
    by_cases htm : t < tmax
    · simp only [htm, if_true]
      obtain ⟨⟨⟨psi, hpsi, hw1⟩, hsm⟩, heq⟩ := id hw
      obtain ⟨y, hy⟩ := rankParams_ok (smp := smp) p₀ hp₀ psi hpsi
      obtain ⟨y₂, hy₂⟩ := rankParams_ok (smp := Fin N → smp) p₀ hp₀ psi hpsi
      obtain rfl : y₂ = y := by
        have h1 := hy ((w 0).2.1, (w 0).2.2)
        have h2 := hy₂ ((w 0).2.1, fun _ => (w 0).2.2)
        unfold rankParams at h1 h2
        rw [h1] at h2
        exact (Except.ok.inj h2).symm
      have lp : Lockstep (fun r => Prog.lift (rankParams (w r))) fun _ => y₂ := by
        refine lockstep_lift _ _ fun r => ?_
        have := hy (w r).2
        rw [← hw1 r] at this
        exact this
      have sp : ∀ r, rankParams (rankView w r) = .ok y₂ := by
        intro r
        unfold rankView
        rw [hw1 r]
        exact hy₂ _
      simp only [sp, Except.toOption, Option.bind_eq_bind, Option.bind_some]
      rcases step_sim (norm := attrNorm norm) (normV := fun w => norm w.2.1.eqn)
          (tdvpRhs_sim henv hall cfg hc hc' ht p₀ hp₀) (attrNorm_agree p₀ norm) t y₂ w hw stepper with
        ⟨⟨y', d, stepper'⟩, w₁, hw₁, ls, hs⟩ | ⟨o, s, ls, ho, hs⟩
      · simp only [hs, Option.bind_some]
        obtain ⟨⟨⟨psi₁, hpsi₁, hw₁1⟩, hsm₁⟩, heq₁⟩ := hw₁
        obtain ⟨psi₂, hpsi₂, h₂, hset⟩ := rankSet_ok (smp := smp) p₀ hp₀ psi₁ hpsi₁ y'
        obtain ⟨psi₃, hpsi₃, h₃, hset'⟩ := rankSet_ok (smp := Fin N → smp) p₀ hp₀ psi₁ hpsi₁ y'
        obtain rfl : psi₃ = psi₂ := by
          have h1 := hset ((w 0).2.1, (w 0).2.2)
          have h2 := hset' ((w 0).2.1, fun _ => (w 0).2.2)
          unfold rankSet at h1 h2
          revert h1 h2
          cases (setParameters (.vec (List.ofFn y'))).call psi₁ with
          | mk a b =>
            cases a with
            | error e => intro h1; cases h1
            | ok u => intro h1 h2; cases h1; cases h2; rfl
        have hw₂ : EvoAgree p₀ inv (fun r => (psi₃, (w₁ r).2)) :=
          ⟨⟨⟨psi₃, hpsi₃, fun _ => rfl⟩, hsm₁⟩, heq₁⟩
        have lset : Lockstep (fun r => Prog.lift (rankSet y' (w₁ r))) fun r => (psi₃, (w₁ r).2) := by
          refine lockstep_lift _ _ fun r => ?_
          have := hset (w₁ r).2
          rw [← hw₁1 r] at this
          exact this
        have sset : ∀ r, rankSet y' (rankView w₁ r) = .ok (psi₃, (w₁ r).2.1, fun r' => (w₁ r').2.2) := by
          intro r
          unfold rankView
          rw [hw₁1 r]
          exact hset' _
        simp only [sset, Option.bind_some]
        obtain ⟨o, sm', hw₃, lm, hm⟩ := rankMeasure_ranks p₀ hobs _ hw₂
        dsimp only at hm
        simp only [hm, Option.bind_some]
        obtain ⟨v, hv, lv⟩ := ih (t + d) stepper' _ (log ++ [(t + d, o)]) hw₃
        exact ⟨v, hv, lockstep_seq lp (lockstep_seq ls (lockstep_seq lset (lockstep_seq lm lv)))⟩
      · simp only [hs, Option.bind_none]
        refine ⟨fun _ => none, ⟨Or.inl fun _ => rfl, fun r => (w r).2.2, fun r => Or.inl ⟨rfl, rfl⟩⟩,
          lockstep_seq lp (lockstep_seq ls ?_)⟩
        dsimp only
        rcases ho with rfl | ho
        · exact lockstep_pure _
        · simp only [ho]
          exact lockstep_pure _
    · simp only [htm, if_false]
      exact ⟨_, stay t stepper w log hw, lockstep_pure _⟩

end evolution

/-! ## Observables -/

section observables

variable {K : ℕ}

theorem exactSample_runs [NeZero N] (lpf ln : ℝ) (d : Fin N → List (List ExactEntry)) (h : ∀ r, d r ≠ []) :
    ∃ (ln' : ℝ) (q : Fin N → List (List ℝ)), exactSample lpf ln (List.ofFn d) = .ok (ln', List.ofFn q) ∧
      ∀ r, q r ≠ [] := by
  set q : Fin N → List (List ℝ) := fun r => (d r).map fun dev => dev.map (exactUnnormalised lpf ln) with hq
  have hw : (List.ofFn d).map (fun rk => rk.map fun dev => dev.map (exactUnnormalised lpf ln)) = List.ofFn q := by
    rw [List.map_ofFn]
    rfl
  have hqne : ∀ r, q r ≠ [] := by
    intro r hc
    exact h r (by simpa [hq] using hc)
  have hs := globalSum_eq (List.ofFn q) (by
    intro x hx
    obtain ⟨r, rfl⟩ := List.mem_ofFn.mp hx
    exact hqne r)
  set tot := (allSamples (List.ofFn q)).sum with htot
  refine ⟨ln + lpf * Real.log tot, fun r => (q r).map fun dev => dev.map fun x => x / tot, ?_, ?_⟩
  · unfold exactSample
    rw [hw]
    change Except.bind (globalSum (List.ofFn q)) _ = _
    rw [hs, List.map_ofFn]
    obtain ⟨k, rfl⟩ := Nat.exists_eq_succ_of_ne_zero (NeZero.ne N)
    rw [List.ofFn_succ (f := (fun _ => tot) ∘ q)]
    show Except.ok (_, List.map _ (List.ofFn q)) = _
    rw [List.map_ofFn]
    rfl
  · intro r hc
    exact hqne r (by simpa using hc)

theorem mcmcWeights_runs (lpf mu : ℝ) (d : Fin N → List (List ℂ)) (h : ∀ r, d r ≠ []) :
    ∃ q : Fin N → List (List ℝ), mcmcWeights lpf mu (List.ofFn d) = .ok (List.ofFn q) ∧ ∀ r, q r ≠ [] := by
  set q : Fin N → List (List ℝ) := fun r => (d r).map fun dev =>
    dev.map fun z => Real.exp ((1 / lpf - mu) * z.re) with hq
  have hw : (List.ofFn d).map (fun rk => rk.map fun dev =>
      dev.map fun z => Real.exp ((1 / lpf - mu) * z.re)) = List.ofFn q := by
    rw [List.map_ofFn]
    rfl
  have hqne : ∀ r, q r ≠ [] := by
    intro r hc
    exact h r (by simpa [hq] using hc)
  have hs := globalSum_eq (List.ofFn q) (by
    intro x hx
    obtain ⟨r, rfl⟩ := List.mem_ofFn.mp hx
    exact hqne r)
  set tot := (allSamples (List.ofFn q)).sum with htot
  refine ⟨fun r => (q r).map fun dev => dev.map fun x => x / tot, ?_, ?_⟩
  · unfold mcmcWeights
    rw [hw]
    change Except.bind (globalSum (List.ofFn q)) _ = _
    rw [hs, List.map_ofFn]
    show Except.ok _ = Except.ok _
    rw [ofFn_zip, List.map_ofFn]
    rfl
  · intro r hc
    exact hqne r (by simpa using hc)

theorem measures_runs {X : Type} (ns : Option ℕ) (q : Fin N → List (List ℝ)) (hq : ∀ r, q r ≠ [])
    (d : Fin N → List (List (X × (Fin K → ℂ)))) (hd : ∀ r, d r ≠ []) :
    ∃ (ls : List (List MeasResult)) (ms : List MeasResult),
      ((List.finRange K).map fun k => List.zipWith (opData k) (List.ofFn q) (List.ofFn d)).mapM (measureOne ns)
        = .ok ls ∧
      (∀ r : Fin N, ls.mapM (atRank r.val) = .ok ms) ∧
      Lockstep (fun r => measureManyR ns ((List.finRange K).map fun k => opData k (q r) (d r))) fun _ => ms := by
  have hds : ((List.finRange K).map fun k => List.zipWith (opData k) (List.ofFn q) (List.ofFn d))
      = ((List.finRange K).map fun k => fun r => opData k (q r) (d r)).map List.ofFn := by
    rw [List.map_map]
    apply List.map_congr_left
    intro k _
    exact ofFn_zipWith _ _ _
  obtain ⟨ls, hls⟩ : ∃ ls, (((List.finRange K).map fun k => fun r => opData k (q r) (d r)).map
      List.ofFn).mapM (measureOne ns) = .ok ls := by
    have hone : ∀ x ∈ ((List.finRange K).map fun k => fun r => opData k (q r) (d r)).map List.ofFn,
        ∃ l, measureOne ns x = .ok l := by
      intro x hx
      obtain ⟨_, hy, rfl⟩ := List.mem_map.mp hx
      obtain ⟨k, -, rfl⟩ := List.mem_map.mp hy
      obtain ⟨res, hres, -⟩ := measureOne_mean ns (List.ofFn fun r => opData k (q r) (d r)) (by
        intro rk hrk
        obtain ⟨r, rfl⟩ := List.mem_ofFn.mp hrk
        intro hc
        unfold opData at hc
        rcases List.zipWith_eq_nil_iff.mp hc with h | h
        · exact hq r h
        · exact hd r h)
      exact ⟨res, hres⟩
    generalize (((List.finRange K).map fun k => fun r => opData k (q r) (d r)).map List.ofFn) = xs at hone
    induction xs with
    | nil => exact ⟨[], rfl⟩
    | cons x xs ih =>
      obtain ⟨l, hl⟩ := hone x (by simp)
      obtain ⟨ls, hls⟩ := ih fun y hy => hone y (by simp [hy])
      refine ⟨l :: ls, ?_⟩
      rw [List.mapM_cons, hl]
      change Except.bind (xs.mapM (measureOne ns)) _ = _
      rw [hls]
      rfl
  obtain ⟨ms, rfl, l⟩ := measureMany_ranks _ ls hls
  refine ⟨_, ms, by rw [hds]; exact hls, fun r => ?_, ?_⟩
  · clear hls l
    induction ms with
    | nil => rfl
    | cons m ms ih =>
      rw [List.map_cons, List.mapM_cons, atRank_ofFn]
      change Except.bind (List.mapM _ _) _ = _
      rw [ih]
      rfl
  · simpa only [List.map_map, Function.comp_def] using l

theorem exactObs_inStep [NeZero N] {β : Type} (lpf : ℝ) (loc : β → Params → List (List (ExactEntry × (Fin K → ℂ))))
    (hdev : ∀ b p, loc b p ≠ []) :
    ObservesInStep (N := N) (fun sm => ∀ r, (sm r).2 = (sm 0).2) (exactObs lpf loc) (exactObsR lpf loc) := by
  intro p sm hsm
  obtain ⟨ln, q, hq, hne⟩ := exactSample_runs lpf (sm 0).2
    (fun r => (loc (sm r).1 p).map fun dev => dev.map Prod.fst) (by intro r; simpa using hdev _ _)
  obtain ⟨q', hq', lq⟩ := exactSample_ranks hq
  obtain rfl := List.ofFn_injective hq'
  obtain ⟨ls, ms, h1, h2, lm⟩ := measures_runs none q hne (fun r => loc (sm r).1 p) fun r => hdev _ _
  refine ⟨ms, fun r => ((sm r).1, ln), fun r => rfl, fun r => ?_, ?_⟩
  · change Except.bind (exactSample lpf (sm 0).2 (List.ofFn fun r => (loc (sm r).1 p).map fun dev => dev.map Prod.fst))
      _ = _
    rw [hq]
    change Except.bind (List.mapM (measureOne none) _) _ = _
    rw [h1]
    change Except.bind (List.mapM (atRank r.val) _) _ = _
    rw [h2 r]
    rfl
  · unfold exactObsR
    simp only [hsm]
    exact lockstep_seq lq (lockstep_seq lm (lockstep_pure _))

theorem mcmcObs_inStep {σ : Type} (lpf mu : ℝ) (num : ℕ) (draw : σ → Params → List (List (ℂ × (Fin K → ℂ))) × σ)
    (hdev : ∀ s p, (draw s p).1 ≠ []) :
    ObservesInStep (N := N) (fun _ => True) (mcmcObs lpf mu num draw) (mcmcObsR lpf mu num draw) := by
  intro p sm _
  obtain ⟨q, hq, hne⟩ := mcmcWeights_runs lpf mu
    (fun r => (draw (sm r) p).1.map fun dev => dev.map Prod.fst) (by intro r; simpa using hdev _ _)
  obtain ⟨q', hq', lq⟩ := mcmcWeights_ranks hq
  obtain rfl := List.ofFn_injective hq'
  obtain ⟨ls, ms, h1, h2, lm⟩ := measures_runs (some num) q hne (fun r => (draw (sm r) p).1) fun r => hdev _ _
  refine ⟨ms, fun r => (draw (sm r) p).2, trivial, fun r => ?_, ?_⟩
  · change Except.bind (mcmcWeights lpf mu (List.ofFn fun r => (draw (sm r) p).1.map fun dev => dev.map Prod.fst))
      _ = _
    rw [hq]
    change Except.bind (List.mapM (measureOne (some num)) _) _ = _
    rw [h1]
    change Except.bind (List.mapM (atRank r.val) _) _ = _
    rw [h2 r]
    rfl
  · exact lockstep_seq lq (lockstep_seq lm (lockstep_pure _))

end observables

end JVMC
