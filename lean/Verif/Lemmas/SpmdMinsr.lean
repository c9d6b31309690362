import Verif.Model.SpmdMinsr
import Verif.Lemmas.SpmdRun
import Verif.Lemmas.MinsrSearch

/-!
# Lemmas for C105 with MinSR
-/

namespace JVMC

open Spec

variable {N n : ℕ} {smp O : Type} [NeZero N] {inv : (Fin N → smp) → Prop} {env : TdvpEnv n (Fin N → smp)}
  {envR : TdvpEnvR n smp}

/-- A call on all ranks, for states of `psi` that agree. -/
theorem minsr_call_ranks (henv : MeasuresInStep inv env envR) (hall : MeasuresAlways inv env) (cfg : MinSRCfg)
    (p₀ : Params) (hp₀ : (flattenParams p₀).length = n + 1) (y : Fin (n + 1) → ℝ) (t : ℝ) (k : Option ℕ)
    (psi : NqsState) (hpsi : IsNetwork p₀ psi) (sm : Fin N → smp) (hsm : inv sm) (at₀ : Fin N → MinSRAttrs) :
    ∃ (u : Fin (n + 1) → ℂ) (at₁ : Fin N → MinSRAttrs) (sm' : Fin N → smp), inv sm' ∧
      Lockstep (fun r => minsrCallR envR cfg (List.ofFn y) t k (sm r) (at₀ r) psi)
        (fun r => ((u, at₁ r, sm' r), psi)) ∧
      (∀ r : Fin N, (minsrCall env cfg r.val (List.ofFn y) t k sm (at₀ r)).call psi
        = (.ok (u, at₁ r, sm'), psi)) ∧ (k = some 0 → ∃ e, ∀ r, at₁ r = some e) := by
  obtain ⟨ops, hops, rfl⟩ := isNetwork_reached p₀ psi hpsi
  obtain ⟨st, hst, w1, w2, -⟩ := hpsi
  obtain ⟨p, hp, -⟩ := paramUnflatten_ok p₀.isReal p₀.sizes (List.ofFn y) (by
    rw [← flatten_length_params, hp₀, List.length_ofFn])
  obtain ⟨joint, sm', hm, h1, h2⟩ := hall p sm t hsm
  have hlen : List.length joint = N := by
    obtain ⟨-, w, rfl, -⟩ := henv p sm t joint sm' hsm hm
    simp
  have hcall : ∀ r : Fin N, ∃ u, (minsrCall env cfg r.val (List.ofFn y) t k sm (at₀ r)).call (nqsRun p₀ ops)
      = (.ok (u, (if k = some 0 then
        some (wMean ((allSamples joint).map fun s => (s.1, s.2.1)) 0,
          wVar ((allSamples joint).map fun s => (s.1, s.2.1)) 0) else at₀ r), sm'), nqsRun p₀ ops) := by
    intro r
    obtain ⟨E, G, hi⟩ := tdvpInput_exists joint r.val h1 h2 (by rw [hlen]; exact r.isLt)
    obtain ⟨u, -, hu⟩ := c72_call env cfg r.val (List.ofFn y) t k sm sm' (at₀ r) p₀ ops hops st hst p
      (by rw [w1, w2]; exact hp) joint hm E G hi
    exact ⟨u, Prod.ext hu (c72_restores env cfg r.val (List.ofFn y) t k sm (at₀ r) p₀ ops hops _ hu)⟩
  choose u hcall using hcall
  rw [hst] at hcall ⊢
  obtain ⟨l, hinv, x, hx⟩ := minsrCall_ranks henv cfg (List.ofFn y) t k sm sm' hsm at₀ _ st (fun _ => some st) u hcall
  simp only [hx] at l hcall
  refine ⟨x, _, sm', hinv, l, hcall, fun hk => ⟨_, fun r => if_pos hk⟩⟩

/-- The states of the ranks agree. -/
def MinsrAgree (p₀ : Params) (inv : (Fin N → smp) → Prop) (w : Fin N → MinsrState smp) : Prop :=
  (∃ psi, IsNetwork p₀ psi ∧ ∀ r, (w r).1 = psi) ∧ inv (fun r => (w r).2.2)

theorem minsrApi_inStep (henv : MeasuresInStep inv env envR) (hall : MeasuresAlways inv env) (cfg : MinSRCfg)
    (p₀ : Params) (hp₀ : (flattenParams p₀).length = n + 1) (hcpx : p₀.isReal = false)
    {meas : ℕ → Params → (Fin N → smp) → Except PyErr (O × (Fin N → smp))}
    {measR : Params → smp → Prog (O × smp)} (hobs : ObservesInStep inv meas measR) :
    SearchInStep (MinsrAgree p₀ inv) (minsrApiR envR cfg measR)
      (fun r => minsrApi env cfg r.val (psiMeasure (meas r.val)))
      (fun w r => ((w r).1, (w r).2.1, fun r' => (w r').2.2)) where
  shift _ := rfl
  setter _ := rfl
  params w hw := by
    obtain ⟨⟨psi, hpsi, hw1⟩, -⟩ := hw
    obtain ⟨p, rfl, h1, h2⟩ := (isNetwork_iff p₀ psi).mp hpsi
    have hl : (flattenParams p).length = n + 1 := by
      rw [flatten_length_params, h1, h2, ← flatten_length_params, hp₀]
    have hg : (getParameters.call (netState p₀ p)).1 = .ok (some (flattenParams p)) := rfl
    have hv : ∀ x : MinSRAttrs × smp, minsrParams (n := n) (netState p₀ p, x)
        = .ok fun i => (((flattenParams p)[i]'(by omega) : ℝ) : ℂ) := by
      intro x
      unfold minsrParams netState
      dsimp only
      rw [if_pos h1.symm]
      change (match (getParameters.call (netState p₀ p)).1 with
        | .error e => Except.error e
        | .ok none => .error .typeError
        | .ok (some v) =>
          if h : v.length = n + 1 then .ok fun i : Fin (n + 1) => ((v[i]'(by omega) : ℝ) : ℂ) else .error .broadcastError) = _
      simp only [hg]
      rw [dif_pos hl]
    refine ⟨fun i => (((flattenParams p)[i]'(by omega) : ℝ) : ℂ), fun r => ⟨?_, ?_⟩⟩
    · have := hv (w r).2
      rw [← hw1 r] at this
      exact this
    · have := hv (w r).2
      rw [← hw1 r] at this
      exact this
  rhs d y w hw := by
    obtain ⟨⟨psi, hpsi, hw1⟩, hsm⟩ := hw
    obtain ⟨u, at₁, sm', hinv, l, hcall, hel⟩ := minsr_call_ranks henv hall cfg p₀ hp₀
      (fun i => (y i).re) 0 (some 0) psi hpsi (fun r => (w r).2.2) hsm (fun r => (w r).2.1)
    obtain ⟨e, he⟩ := hel rfl
    refine ⟨fun r => (psi, at₁ r, sm' r), ⟨⟨psi, hpsi, fun _ => rfl⟩, hinv⟩, ?_⟩
    refine Or.inl ⟨u, some e.2, ?_, fun r => ⟨?_, ?_, ?_⟩⟩
    · change Lockstep (fun r => (minsrCallR envR cfg (List.ofFn fun i => (y i).re) 0 (some 0) (w r).2.2 (w r).2.1 (w r).1
        >>= fun x => pure (some x.1.1, (x.2, x.1.2.1, x.1.2.2)) : Prog _)) _
      simp only [hw1]
      exact lockstep_seq l (lockstep_pure _)
    · have := hcall r
      unfold minsrApi
      dsimp only
      rw [hw1 r, this]
    · change (match at₁ r with
        | none => Except.error PyErr.attributeError
        | some x => .ok (some x.2)) = _
      rw [he r]
    · change (match at₁ r with
        | none => Except.error PyErr.attributeError
        | some x => .ok (some x.2)) = _
      rw [he r]
  set y w hw := by
    obtain ⟨⟨psi, hpsi, hw1⟩, hsm⟩ := hw
    obtain ⟨ops, hops, rfl⟩ := isNetwork_reached p₀ psi hpsi
    have hne : nqsRun p₀ ops ≠ none := by
      obtain ⟨st, hst, -⟩ := hpsi
      rw [hst]
      simp
    have hs := setC_call hp₀ hcpx hops hne y
    obtain ⟨q, hq⟩ : ∃ q, q = nqsRun p₀ (ops ++ [.set (.vec (List.ofFn fun k : Fin (n + 1) =>
      foldedEntry p₀.sizes (List.ofFn y) k))]) := ⟨_, rfl⟩
    rw [← hq] at hs
    have hnet : IsNetwork p₀ q := by
      obtain ⟨p, hp, h1, h2⟩ := (isNetwork_iff p₀ _).mp hpsi
      obtain ⟨q', -, q1, q2, q3⟩ := paramUnflatten_ok p₀.isReal p₀.sizes
        (List.ofFn fun k : Fin (n + 1) => foldedEntry p₀.sizes (List.ofFn y) k) (by
          rw [← flatten_length_params, hp₀, List.length_ofFn])
      have := netState_set p₀ p q' _ q1 q2 q3
      have e : q = ((setParameters (.vec (List.ofFn fun k : Fin (n + 1) =>
          foldedEntry p₀.sizes (List.ofFn y) k))).call (nqsRun p₀ ops)).2 := by
        rw [hq]
        unfold nqsRun
        rw [List.foldl_append]
        rfl
      rw [e, hp, this]
      exact (isNetwork_iff p₀ _).mpr ⟨q', rfl, q1, q2⟩
    refine ⟨fun r => (q, (w r).2), ⟨⟨q, hnet, fun _ => rfl⟩, hsm⟩, fun r => ⟨?_, ?_, rfl, rfl⟩⟩
    · change minsrSet y (w r) = _
      unfold minsrSet
      rw [hw1 r, hs]
    · unfold minsrApi
      dsimp only
      rw [hw1 r, hs]
  measure w hw := by
    obtain ⟨⟨psi, hpsi, hw1⟩, hsm⟩ := hw
    obtain ⟨p, rfl, h1, h2⟩ := (isNetwork_iff p₀ psi).mp hpsi
    obtain ⟨o, sm', hinv, hm, l⟩ := hobs p (fun r => (w r).2.2) hsm
    refine ⟨o, fun r => (netState p₀ p, (w r).2.1, sm' r), ⟨⟨_, hpsi, fun _ => rfl⟩, hinv⟩, ?_, fun r => ?_⟩
    · change Lockstep (fun r => minsrMeasure measR (w r)) _
      unfold minsrMeasure
      simp only [hw1]
      exact lockstep_seq l (lockstep_pure _)
    · change Except.bind (psiMeasure (meas r.val) (w r).1 fun r' => (w r').2.2) _ = _
      rw [hw1 r]
      change Except.bind (meas r.val p fun r' => (w r').2.2) _ = _
      rw [hm r]
      rfl

end JVMC
