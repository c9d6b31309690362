import Verif.Lemmas.SpmdTdvp
import Verif.Props.Tdvp
import Verif.Props.MinSR

/-!
# Lemmas for C102: calls of TDVP, MinSR and the output manager on the ranks
-/

namespace JVMC

open Spec

variable {N n : ℕ} [NeZero N]

theorem except_bind_ok {A B : Type} {x : Except PyErr A} {f : A → Except PyErr B} {y : B}
    (h : Except.bind x f = .ok y) : ∃ a, x = .ok a ∧ f a = .ok y := by
  cases x with
  | error e => cases h
  | ok a => exact ⟨a, rfl, h⟩

omit [NeZero N] in
theorem bothFinite_world (a : Option (Fin N → RObs (Fin 1))) (b : Option (Fin N → RObs (Fin (n + 1)))) :
    (bothFinite (a.map joinObs) (b.map joinObs) : TdvpData n) = RankData.world (bothFinite a b) ∧
    ∀ r, (bothFinite (a.map fun x => x r) (b.map fun x => x r) : TdvpDataR n) =
      RankData.rank (bothFinite a b) r := by
  cases a <;> cases b <;> exact ⟨rfl, fun _ => rfl⟩

theorem crossValidate_ranks (cfg : TdvpCfg n) (E : Fin N → RObs (Fin 1))
    (G : Fin N → RObs (Fin (n + 1))) (md : Fin N → TdvpMeta n) (at₀ : Fin N → TdvpAttrs n)
    (res : Fin N → Flt (Fin (n + 1) → ℝ) × TdvpAttrs n)
    (h : ∀ r : Fin N, crossValidate cfg r.val (joinObs E) (joinObs G) (md r) (at₀ r) = .ok (res r)) :
    Lockstep (fun r => crossValidateR cfg (E r) (G r) (md r) (at₀ r)) res ∧
      ∃ x, ∀ r, (res r).1 = x := by
  unfold crossValidate at h
  obtain ⟨o1, h1, -⟩ := except_bind_ok (h 0)
  obtain ⟨e1, rfl, l1⟩ := subset_ranks h1
  simp only [h1] at h
  change ∀ r : Fin N, Except.bind ((joinObs G).subset _ _ _) _ = _ at h
  obtain ⟨o2, h2, -⟩ := except_bind_ok (h 0)
  obtain ⟨g1, rfl, l2⟩ := subset_ranks h2
  simp only [h2] at h
  change ∀ r : Fin N, Except.bind ((joinObs E).subset _ _ _) _ = _ at h
  obtain ⟨o3, h3, -⟩ := except_bind_ok (h 0)
  obtain ⟨e2, rfl, l3⟩ := subset_ranks h3
  simp only [h3] at h
  change ∀ r : Fin N, Except.bind ((joinObs G).subset _ _ _) _ = _ at h
  obtain ⟨o4, h4, -⟩ := except_bind_ok (h 0)
  obtain ⟨g2, rfl, l4⟩ := subset_ranks h4
  simp only [h4] at h
  change ∀ r : Fin N, Except.bind (tdvpSolve cfg r.val (bothFinite (e1.map joinObs) (g1.map joinObs))
    (at₀ r)) _ = _ at h
  rw [(bothFinite_world e1 g1).1] at h
  choose s1 hs1 h using fun r => except_bind_ok (h r)
  obtain ⟨l5, -⟩ := tdvpSolve_ranks cfg _ at₀ s1 hs1
  change ∀ r : Fin N, Except.bind (getTdvpEquation cfg r.val (bothFinite (e2.map joinObs)
    (g2.map joinObs)) (s1 r).2) _ = _ at h
  rw [(bothFinite_world e2 g2).1] at h
  choose q2 hq2 h using fun r => except_bind_ok (h r)
  obtain ⟨l6, -⟩ := getTdvpEquation_ranks cfg _ _ q2 hq2
  change ∀ r : Fin N, Except.bind (getTdvpError (q2 r).2 (s1 r).1.update) _ = _ at h
  choose ve hve h using fun r => except_bind_ok (h r)
  change ∀ r : Fin N, Except.bind (tdvpSolve cfg r.val (RankData.world (some (E, G))) (q2 r).2) _ = _ at h
  choose s2 hs2 h using fun r => except_bind_ok (h r)
  obtain ⟨l7, x7, h7⟩ := tdvpSolve_ranks cfg _ _ s2 hs2
  change ∀ r : Fin N, Except.bind (getTdvpEquation cfg r.val (RankData.world (some (E, G))) _) _ = _ at h
  choose q3 hq3 h using fun r => except_bind_ok (h r)
  obtain ⟨l8, -⟩ := getTdvpEquation_ranks cfg _ _ q3 hq3
  refine ⟨lockstep_seq l1 (lockstep_seq l2 (lockstep_seq l3 (lockstep_seq l4 ?_))), x7.update,
    fun r => by rw [← Except.ok.inj (h r), ← h7 r]⟩
  simp only [(bothFinite_world e1 g1).2, (bothFinite_world e2 g2).2]
  exact lockstep_seq l5 (lockstep_seq l6 (lockstep_seq (lockstep_lift _ ve hve) (lockstep_seq l7
    (lockstep_seq l8 (lockstep_return _ res fun r => Except.ok.inj (h r))))))


omit [NeZero N] in
theorem lockstep_rets {α : Type} (p : Fin N → Prog α) (v : Fin N → α) (h : ∀ r, p r = .ret (v r)) :
    Lockstep p v := by
  rw [funext h]
  exact Lockstep.done v

omit [NeZero N] in
theorem psiR_ok {A : Type} {m : PsiM A} {st st' : NqsState} {a : A} (h : m.call st = (.ok a, st')) :
    psiR m st = .ret (a, st') := by
  unfold psiR
  rw [h]

/-- The object `metaData` of a call. -/
noncomputable abbrev callMeta (err : Flt ℝ) (res : SolveRes n) (atS : TdvpAttrs n) : TdvpMeta n :=
  ⟨err, res.residual, res.cutoff, atS.snr.getD fun _ => .nan,
    (atS.spectrum.getD none).map fun sp => sp.ev, none⟩

/-- The attributes before cross validation. -/
noncomputable abbrev callAttrs (err : Flt ℝ) (res : SolveRes n) (atS : TdvpAttrs n) : TdvpAttrs n :=
  { atS with
    eloc0 := atS.eqn.map fun e => e.map fun x => (x.elocMean, x.elocVar)
    metaData := some (callMeta err res atS) }

omit [NeZero N] in
theorem tdvpData_ranks {w : Fin N → List (List (ℝ × (Fin 1 → ℂ) × (Fin (n + 1) → ℂ)))}
    {E : SObs (Fin 1)} {G : SObs (Fin (n + 1))} (h : IsTdvpData (List.ofFn w) E G) :
    ∃ (e : Fin N → RObs (Fin 1)) (g : Fin N → RObs (Fin (n + 1))), E = joinObs e ∧ G = joinObs g ∧
      Lockstep (fun r => RObs.create ((w r).map fun dev => dev.map fun s => (s.1, s.2.1))) e ∧
      Lockstep (fun r => RObs.create ((w r).map fun dev => dev.map fun s => (s.1, s.2.2))) g := by
  obtain ⟨hE, hG⟩ := h
  unfold World.map at hE hG
  rw [List.map_ofFn] at hE hG
  obtain ⟨e, rfl, le⟩ := create_ranks hE
  obtain ⟨g, rfl, lg⟩ := create_ranks hG
  exact ⟨e, g, rfl, rfl, le, lg⟩

theorem tdvpCall_ranks {smp : Type} {env : TdvpEnv n (Fin N → smp)} {envR : TdvpEnvR n smp}
    {inv : (Fin N → smp) → Prop} (henv : MeasuresInStep inv env envR) (cfg : TdvpCfg n) (netP : List ℝ) (t : ℝ) (k : Option ℕ)
    (sm sm' : Fin N → smp) (hsm : inv sm) (at₀ at₁ : Fin N → TdvpAttrs n) (st : NqsInit) (st' : Fin N → NqsState)
    (u : Fin N → Flt (Fin (n + 1) → ℝ))
    (h : ∀ r : Fin N, (tdvpCall env cfg r.val netP t k sm (at₀ r)).call (some st) =
      (.ok (u r, at₁ r, sm'), st' r)) :
    Lockstep (fun r => tdvpCallR envR cfg netP t k (sm r) (at₀ r) (some st))
      (fun r => ((u r, at₁ r, sm' r), st' r)) ∧ inv sm' ∧ ∃ x, ∀ r, u r = x := by
  choose p joint E G res atS p' hp hm hd hs hp' hst hk1 hk2 using fun r : Fin N =>
    tdvpCall_ok env cfg r.val netP t k sm sm' (at₀ r) (at₁ r) st (st' r) (u r) (h r)
  -- the ranks agree on everything that does not depend on the rank
  obtain ⟨P, hP⟩ : ∃ P, ∀ r, p r = P := ⟨p 0, fun r => Except.ok.inj ((hp r).symm.trans (hp 0))⟩
  obtain ⟨P', hP'⟩ : ∃ P', ∀ r, p' r = P' :=
    ⟨p' 0, fun r => Except.ok.inj ((hp' r).symm.trans (hp' 0))⟩
  obtain rfl : p = fun _ => P := funext hP
  obtain rfl : p' = fun _ => P' := funext hP'
  obtain ⟨J, hJ⟩ : ∃ J, ∀ r, joint r = J :=
    ⟨joint 0, fun r => (Prod.mk.inj (Except.ok.inj ((hm r).symm.trans (hm 0)))).1⟩
  obtain rfl : joint = fun _ => J := funext hJ
  obtain ⟨E', hE'⟩ : ∃ E', ∀ r, E r = E' := ⟨E 0, fun r => Except.ok.inj ((hd r).1.symm.trans (hd 0).1)⟩
  obtain ⟨G', hG'⟩ : ∃ G', ∀ r, G r = G' := ⟨G 0, fun r => Except.ok.inj ((hd r).2.symm.trans (hd 0).2)⟩
  obtain rfl : E = fun _ => E' := funext hE'
  obtain rfl : G = fun _ => G' := funext hG'
  obtain ⟨hsm', w, rfl, lm⟩ := henv P sm t J sm' hsm (hm 0)
  obtain ⟨e, g, rfl, rfl, le, lg⟩ := tdvpData_ranks (hd 0)
  obtain ⟨ls, xs, hxs⟩ := tdvpSolve_ranks cfg (some (e, g)) at₀ (fun r => (res r, atS r)) hs
  have hset : psiR (setParameters (.vec netP)) (some st) = .ret ((), some { st with params := P }) := by
    apply psiR_ok
    rw [call_setVec, hp 0]
  have hset' : psiR (setParameters (.vec (flattenParams st.params))) (some { st with params := P }) =
      .ret ((), some { st with params := P' }) := by
    apply psiR_ok
    rw [call_setVec]
    dsimp only
    rw [hp' 0]
  have hget : psiR getParameters (some st) = .ret (some (flattenParams st.params), some st) :=
    psiR_ok (call_getParameters st)
  have hgetP : psiR getParams (some { st with params := P }) =
      .ret (some P, some { st with params := P }) := psiR_ok (call_getParams _)
  suffices hgoal : Lockstep (fun r => (do
      let __x ← Prog.ret ((), some { st with params := P' })
      match __x with
      | (_, st) =>
        if k = some 0 then
          let at₂ : TdvpAttrs n := { atS r with eloc0 := (atS r).eqn.map fun e => e.map fun x => (x.elocMean, x.elocVar) }
          let err ← Prog.lift (getTdvpError at₂ (res r).update)
          if cfg.crossValidation then
            let (update, at₄) ← crossValidateR cfg (e r) (g r) (callMeta err (res r) (atS r))
              (callAttrs err (res r) (atS r))
            return ((update, at₄, sm' r), st)
          else return (((res r).update, callAttrs err (res r) (atS r), sm' r), st)
        else return (((res r).update, atS r, sm' r), st) : Prog _))
      (fun r => ((u r, at₁ r, sm' r), st' r)) ∧ ∃ x, ∀ r, u r = x by
    refine ⟨?_, hsm', hgoal.2⟩
    unfold tdvpCallR
    refine lockstep_seq (lockstep_rets _ (fun _ => _) fun r => hget) ?_
    refine lockstep_seq (lockstep_rets _ (fun _ => _) fun r => hset) ?_
    refine lockstep_seq (lockstep_rets _ (fun _ => _) fun r => hgetP) ?_
    refine lockstep_seq lm (lockstep_seq le (lockstep_seq lg (lockstep_seq ls
      (lockstep_seq (lockstep_rets _ (fun _ => _) fun r => hset') ?_))))
    exact hgoal.1
  by_cases hk : k = some 0
  · simp only [hk, if_true]
    choose err herr hcv1 hcv2 using fun r => hk2 r hk
    by_cases hcv : cfg.crossValidation = true
    · simp only [hcv, if_true]
      obtain ⟨lc, x, hx⟩ := crossValidate_ranks cfg e g (fun r => callMeta (err r) (res r) (atS r))
        (fun r => callAttrs (err r) (res r) (atS r)) (fun r => (u r, at₁ r)) fun r => hcv2 r hcv
      refine ⟨lockstep_seq (Lockstep.done _) (lockstep_seq (lockstep_lift _ err herr)
        (lockstep_seq lc ?_)), x, hx⟩
      exact lockstep_return _ _ fun r => by rw [hst r]
    · simp only [hcv]
      refine ⟨lockstep_seq (Lockstep.done _) (lockstep_seq (lockstep_lift _ err herr)
        (lockstep_return _ _ fun r => ?_)), xs.update, fun r => ?_⟩
      · obtain ⟨h1, h2⟩ := hcv1 r (by simpa using hcv)
        rw [hst r, h1, h2]
      · rw [(hcv1 r (by simpa using hcv)).1, ← hxs r]
  · simp only [hk, if_false]
    refine ⟨lockstep_seq (Lockstep.done _) (lockstep_return _ _ fun r => ?_), xs.update, fun r => ?_⟩
    · obtain ⟨h1, h2⟩ := hk1 r hk
      rw [hst r, h1, h2]
    · rw [(hk1 r hk).1, ← hxs r]

theorem minsrSolve_ranks (cfg : MinSRCfg) (e : Fin N → RObs (Fin 1)) (g : Fin N → RObs (Fin (n + 1)))
    (u : Fin N → Fin (n + 1) → ℂ)
    (h : ∀ r : Fin N, minsrSolve cfg r.val (joinObs e) (joinObs g) = .ok (u r)) :
    Lockstep (fun r => minsrSolveR cfg (e r) (g r)) u ∧ ∃ x, ∀ r, u r = x := by
  obtain ⟨T, hT, lT⟩ := tangentKernel_ranks g
  obtain ⟨ea, he, le⟩ := gather_ranks fun r => (e r).rows.map fun dev => dev.map fun s => s.2 0
  obtain ⟨ga, hg, lg⟩ := gather_ranks fun r => (g r).rows.map fun dev => dev.map fun s => s.2
  have he' : gather ((joinObs e).rows.map fun s => s.2 0) = List.ofFn fun _ : Fin N => ea := by
    rw [← he]
    unfold joinObs World.map
    rw [List.map_ofFn]
    rfl
  have hg' : gather ((joinObs g).rows.map fun s => s.2) = List.ofFn fun _ : Fin N => ga := by
    rw [← hg]
    unfold joinObs World.map
    rw [List.map_ofFn]
    rfl
  unfold minsrSolve at h
  simp only [hT, he', hg', atRank_ofFn] at h
  change ∀ r : Fin N, (if ea.length = T.length ∧ ga.length = T.length then
    (Except.ok _ : Except PyErr (Fin (n + 1) → ℂ)) else _) = _ at h
  unfold minsrSolveR
  by_cases hl : ea.length = T.length ∧ ga.length = T.length
  · simp only [if_pos hl] at h
    refine ⟨lockstep_seq lT (lockstep_seq le (lockstep_seq lg ?_)), _, fun r => (Except.ok.inj (h r)).symm⟩
    simp only [if_pos hl]
    exact lockstep_return _ _ fun r => Except.ok.inj (h r)
  · have := h 0
    rw [if_neg hl] at this
    cases this

theorem minsrCall_ranks {smp : Type} {env : TdvpEnv n (Fin N → smp)} {envR : TdvpEnvR n smp}
    {inv : (Fin N → smp) → Prop} (henv : MeasuresInStep inv env envR) (cfg : MinSRCfg) (netP : List ℝ) (t : ℝ) (k : Option ℕ)
    (sm sm' : Fin N → smp) (hsm : inv sm) (at₀ at₁ : Fin N → MinSRAttrs) (st : NqsInit) (st' : Fin N → NqsState)
    (u : Fin N → Fin (n + 1) → ℂ)
    (h : ∀ r : Fin N, (minsrCall env cfg r.val netP t k sm (at₀ r)).call (some st) =
      (.ok (u r, at₁ r, sm'), st' r)) :
    Lockstep (fun r => minsrCallR envR cfg netP t k (sm r) (at₀ r) (some st))
      (fun r => ((u r, at₁ r, sm' r), st' r)) ∧ inv sm' ∧ ∃ x, ∀ r, u r = x := by
  choose p joint E G p' hp hm hd hs hp' hst hk1 hk2 using fun r : Fin N =>
    minsrCall_ok env cfg r.val netP t k sm sm' (at₀ r) (at₁ r) st (st' r) (u r) (h r)
  obtain ⟨P, hP⟩ : ∃ P, ∀ r, p r = P := ⟨p 0, fun r => Except.ok.inj ((hp r).symm.trans (hp 0))⟩
  obtain ⟨P', hP'⟩ : ∃ P', ∀ r, p' r = P' :=
    ⟨p' 0, fun r => Except.ok.inj ((hp' r).symm.trans (hp' 0))⟩
  obtain rfl : p = fun _ => P := funext hP
  obtain rfl : p' = fun _ => P' := funext hP'
  obtain ⟨J, hJ⟩ : ∃ J, ∀ r, joint r = J :=
    ⟨joint 0, fun r => (Prod.mk.inj (Except.ok.inj ((hm r).symm.trans (hm 0)))).1⟩
  obtain rfl : joint = fun _ => J := funext hJ
  obtain ⟨E', hE'⟩ : ∃ E', ∀ r, E r = E' := ⟨E 0, fun r => Except.ok.inj ((hd r).1.symm.trans (hd 0).1)⟩
  obtain ⟨G', hG'⟩ : ∃ G', ∀ r, G r = G' := ⟨G 0, fun r => Except.ok.inj ((hd r).2.symm.trans (hd 0).2)⟩
  obtain rfl : E = fun _ => E' := funext hE'
  obtain rfl : G = fun _ => G' := funext hG'
  obtain ⟨hsm', w, rfl, lm⟩ := henv P sm t J sm' hsm (hm 0)
  obtain ⟨e, g, rfl, rfl, le, lg⟩ := tdvpData_ranks (hd 0)
  obtain ⟨ls, hx⟩ := minsrSolve_ranks cfg e g u hs
  refine ⟨?_, hsm', hx⟩
  have hset : psiR (setParameters (.vec netP)) (some st) = .ret ((), some { st with params := P }) := by
    apply psiR_ok
    rw [call_setVec, hp 0]
  have hset' : psiR (setParameters (.vec (flattenParams st.params))) (some { st with params := P }) =
      .ret ((), some { st with params := P' }) := by
    apply psiR_ok
    rw [call_setVec]
    dsimp only
    rw [hp' 0]
  have hget : psiR getParameters (some st) = .ret (some (flattenParams st.params), some st) :=
    psiR_ok (call_getParameters st)
  have hgetP : psiR getParams (some { st with params := P }) =
      .ret (some P, some { st with params := P }) := psiR_ok (call_getParams _)
  unfold minsrCallR
  refine lockstep_seq (lockstep_rets _ (fun _ => _) fun r => hget) ?_
  refine lockstep_seq (lockstep_rets _ (fun _ => _) fun r => hset) ?_
  refine lockstep_seq (lockstep_rets _ (fun _ => _) fun r => hgetP) ?_
  refine lockstep_seq lm (lockstep_seq le (lockstep_seq lg (lockstep_seq ls
    (lockstep_seq (lockstep_rets _ (fun _ => _) fun r => hset') ?_))))
  by_cases hk : k = some 0
  · simp only [hk, if_true]
    choose m vs v hmean hvs hv hat using fun r => hk2 r hk
    obtain ⟨V, hV, lV⟩ := var_ranks (hvs 0)
    refine lockstep_seq lV (lockstep_return _ _ fun r => ?_)
    have h1 : (e r).mean = m r := by
      have := (atRank_ofFn (fun r => (e r).mean) r).symm.trans (hmean r)
      exact Except.ok.inj this
    have h2 : V = v r := by
      have h3 : vs r = List.ofFn fun _ : Fin N => V := by
        rw [← hV]
        exact Except.ok.inj ((hvs r).symm.trans (hvs 0))
      have := hv r
      rw [h3, atRank_ofFn] at this
      exact Except.ok.inj this
    rw [hst r, hat r, h1, h2]
  · simp only [hk, if_false]
    refine lockstep_return _ _ fun r => ?_
    rw [hst r, hk1 r hk]

/-! ## Samplers -/

theorem exactEnv_inStep {β : Type} (lpf : ℝ)
    (loc : β → Params → ℝ → List (List (ExactEntry × (Fin 1 → ℂ) × (Fin (n + 1) → ℂ)))) :
    MeasuresInStep (N := N) (fun sm => ∀ r, (sm r).2 = (sm 0).2) (exactEnv lpf loc) (exactEnvR lpf loc) := by
  intro p sm t w sm' hsm h
  obtain ⟨⟨ln, ps⟩, h1, h2⟩ := except_bind_ok h
  obtain ⟨q, rfl, lq⟩ := exactSample_ranks h1
  obtain ⟨rfl, rfl⟩ := Prod.mk.inj (Except.ok.inj h2)
  refine ⟨fun r => rfl, fun r => withWeights (q r) (loc (sm r).1 p t), ofFn_zipWith _ _ _, ?_⟩
  change Lockstep (fun r => (exactSampleR lpf (sm r).2 _ >>= fun x => pure (_, (_, x.1)) : Prog _)) _
  simp only [hsm]
  exact lockstep_seq lq (lockstep_pure _)

omit [NeZero N] in
theorem mcmcEnv_inStep {σ : Type} (lpf mu : ℝ)
    (draw : σ → Params → ℝ → List (List (ℂ × (Fin 1 → ℂ) × (Fin (n + 1) → ℂ))) × σ) :
    MeasuresInStep (N := N) (fun _ => True) (mcmcEnv lpf mu draw) (mcmcEnvR lpf mu draw) := by
  intro p sm t w sm' _ h
  obtain ⟨ps, h1, h2⟩ := except_bind_ok h
  obtain ⟨q, rfl, lq⟩ := mcmcWeights_ranks h1
  obtain ⟨rfl, rfl⟩ := Prod.mk.inj (Except.ok.inj h2)
  exact ⟨trivial, fun r => withWeights (q r) (draw (sm r) p t).1, ofFn_zipWith _ _ _,
    lockstep_seq lq (lockstep_pure _)⟩

/-! ## Checkpoints -/

theorem omGetCheckpoint_ranks (f : H5File) (cur : HName) (time : ℝ) (idx : ℤ) (t : ℝ) (w : NdArr)
    (h : omGetCheckpoint f cur time idx = .ok (t, w)) :
    Lockstep (fun r : Fin N => omGetCheckpointR f cur time idx r.val)
      fun _ => (t, (List.range (w.shape.headD 0)).map fun i => w.val [i]) := by
  have hp : (fun r : Fin N => omGetCheckpointR f cur time idx r.val) = fun r : Fin N =>
      bcastR (A := ℝ) ((0 : Fin N) : ℕ) (if r = 0 then [t] else []) >>= fun t' =>
        bcastUnknownSizeR r.val ((0 : Fin N) : ℕ)
          (if r = 0 then ⟨true, (List.range (w.shape.headD 0)).map fun i => w.val [i]⟩ else ⟨true, []⟩)
          >>= fun ws => pure (if r = 0 then t else t'.headD 0, ws) := by
    funext r
    unfold omGetCheckpointR
    by_cases hr : r = 0
    · subst hr
      have h0 : ((0 : Fin N) : ℕ) = 0 := by simp
      simp only [h0, if_true, h]
      rfl
    · have hr' : r.val ≠ 0 := fun hc => hr (Fin.ext (by simpa using hc))
      have h0 : ((0 : Fin N) : ℕ) = 0 := by simp
      simp only [h0, hr, hr', if_false]
  rw [hp]
  refine lockstep_seq (lockstep_bcast 0 _) (lockstep_seq (bcastUnknownSize_ranks 0 _ ?_) ?_)
  · simp
  · refine lockstep_return _ _ fun r => ?_
    by_cases hr : r = 0 <;> simp [hr]

end JVMC
