import Verif.Lemmas.OutputCrash
import Verif.Props.OutputManager
import Verif.Props.Tdvp
import Verif.Props.Convergence
import Verif.Spec.Resume

/-!
# Properties of interrupted and resumed simulations (C99)
-/

namespace JVMC

open Spec

variable {n : ℕ} {smp : Type}

/-! ## Files after a crash -/

/-- **C99**: stop a history of natural calls at any moment, also in the middle of a call, and open the file that is left
with `append=True`. This succeeds, and so does every later call; all that was in the file is kept, and every call
appends exactly its rows. -/
theorem c99_usable (fs : Option H5File) (group group' : HName) (hgroup : GroupPath group.path)
    (hgroup' : GroupPath group'.path) (ops ops' : List OmOp) (hn : ∀ op ∈ ops, Natural op)
    (hn' : ∀ op ∈ ops', Natural op) (hs : SameShapes (intended group.path ops ++ intended group'.path ops'))
    (file : H5File) (hfile : file ∈ (omRun (omInit fs group false).2 ops).log.now ::
      (omRun (omInit fs group false).2 ops).log.past) :
    (omInit (some file) group' true).1 = .ok () ∧
    (omInit (some file) group' true).2.obj.currentGroup.path = group'.path ∧
    (∀ pre op post, ops' = pre ++ op :: post → (omCall (omRun (omInit (some file) group' true).2 pre) op).1 = .ok ()) ∧
    (∀ p, rowsAt (omRun (omInit (some file) group' true).2 ops').log.now p
      = rowsAt file p ++ ((intended group'.path ops').filter fun w => w.1 = p).map fun w => NdArr.row w.2) ∧
    ∀ g ∈ (omRun (omInit (some file) group' true).2 ops').log.now ::
      (omRun (omInit (some file) group' true).2 ops').log.past, Intact file g := by
  obtain ⟨shape, hshape⟩ := exists_shape _ hs
  have h0 := history_always shape fs group false (declared_new shape) hgroup ops hn
    (fun w hw => hshape w (List.mem_append_left _ hw))
  have hd : Declared (libDecl shape) file := by
    rcases List.mem_cons.mp hfile with rfl | h
    · exact h0.1
    · exact h0.2 _ h
  obtain ⟨cur, f, past, new, e, cur', f', e2, s2, d2, g2, r2, i2, j2, k2⟩ :=
    history_general shape (some file) group' true hd hgroup' ops' hn'
      (fun w hw => hshape w (List.mem_append_right _ hw))
  obtain ⟨_, _, _, e', hc, _⟩ := init_general shape (some file) group' true hd hgroup'
  rw [e] at e'
  cases e'
  rw [e]
  dsimp only
  refine ⟨rfl, hc, k2, ?_, ?_⟩
  · intro p
    rw [e2]
    exact r2 p
  · rw [e2]
    intro g hg
    rcases List.mem_cons.mp hg with rfl | hg
    · exact i2
    · exact j2 g hg

/-- Case: the hypotheses of `c99_usable` are met by a crash in the middle of a call, after the time was written and
before the weights were. -/
example : ∃ file ∈ (omRun (omInit none ["", ""] false).2 [.writeCheckpoint 1 (some ⟨[2], fun _ => 5⟩)]).log.past,
    (rowsAt file ["network_checkpoints", "times"]).length = 1 ∧
    rowsAt file ["network_checkpoints", "checkpoints"] = [] ∧ GroupPath (HName.path ["", ""]) ∧
    (∀ op ∈ [OmOp.writeCheckpoint 1 (some ⟨[2], fun _ => 5⟩)], Natural op) ∧
    SameShapes (intended (HName.path ["", ""]) [.writeCheckpoint 1 (some ⟨[2], fun _ => 5⟩)] ++
      intended (HName.path ["", ""]) [.writeCheckpoint 2 (some ⟨[2], fun _ => 6⟩)]) := by
  refine ⟨((omRun (omInit none ["", ""] false).2 [.writeCheckpoint 1 (some ⟨[2], fun _ => 5⟩)]).log.past)[2]'(by
      change 2 < 7; norm_num), List.getElem_mem _, rfl, rfl, (by intro c hc; cases hc), ?_, ?_⟩
  · intro op hop
    rw [List.mem_singleton] at hop
    subst hop
    exact rfl
  · intro a ha b hb
    change a ∈ [(["network_checkpoints", "times"], scalarArr 1), (["network_checkpoints", "checkpoints"], ⟨[2], fun _ => 5⟩),
      (["network_checkpoints", "times"], scalarArr 2), (["network_checkpoints", "checkpoints"], ⟨[2], fun _ => 6⟩)] at ha
    change b ∈ [(["network_checkpoints", "times"], scalarArr 1), (["network_checkpoints", "checkpoints"], ⟨[2], fun _ => 5⟩),
      (["network_checkpoints", "times"], scalarArr 2), (["network_checkpoints", "checkpoints"], ⟨[2], fun _ => 6⟩)] at hb
    simp only [List.mem_cons, List.not_mem_nil, or_false] at ha hb
    rcases ha with rfl | rfl | rfl | rfl <;> rcases hb with rfl | rfl | rfl | rfl <;> simp [scalarArr]

/-! ## The right-hand side -/

theorem isNetwork_run (p₀ : Params) (ops : List NqsOp) (hops : ∀ op ∈ ops, op.Fits p₀) (h : nqsRun p₀ ops ≠ none) :
    IsNetwork p₀ (nqsRun p₀ ops) := by
  cases hst : nqsRun p₀ ops with
  | none => exact absurd hst h
  | some st =>
    have hw := wf_run p₀ ops hops st hst
    exact ⟨st, rfl, hw.1, hw.2.1, hw.2.2.1, hw.2.2.2⟩

/-- Every state of such a network is reached by calls. -/
theorem isNetwork_reached (p₀ : Params) (psi : NqsState) (h : IsNetwork p₀ psi) :
    ∃ ops : List NqsOp, (∀ op ∈ ops, op.Fits p₀) ∧ nqsRun p₀ ops = psi := by
  obtain ⟨⟨r, s, p⟩, rfl, rfl, rfl, h3, h4⟩ := h
  exact ⟨[.eval, .set (.dict p)], by simp [NqsOp.Fits, h3, h4], rfl⟩

theorem tdvpCall_reproducible (env : TdvpEnv n smp) (cfg : TdvpCfg n) (hc : 0 < cfg.pinvCutoff)
    (hc' : cfg.pinvCutoff < 1e-2) (ht : cfg.pinvTol < 1) (r : ℕ) (henv : Stateless env r) (p₀ : Params)
    (v : List ℝ) (t : ℝ) (k : Option ℕ) (psi psi' : NqsState) (hpsi : IsNetwork p₀ psi) (hpsi' : IsNetwork p₀ psi')
    (sm sm' sm₁ : smp) (a a' a₁ : TdvpAttrs n) (u : Flt (Fin (n + 1) → ℝ)) (psi₁ : NqsState)
    (h : (tdvpCall env cfg r v t k sm a).call psi = (.ok (u, a₁, sm₁), psi₁)) :
    psi₁ = psi ∧ ∃ a₂ sm₂, (tdvpCall env cfg r v t k sm' a').call psi' = (.ok (u, a₂, sm₂), psi') := by
  obtain ⟨joint, hj, hjj⟩ := henv
  obtain ⟨ops, hops, rfl⟩ := isNetwork_reached p₀ psi hpsi
  obtain ⟨ops', hops', rfl⟩ := isNetwork_reached p₀ psi' hpsi'
  have hr := c44_restores env cfg r v t k sm a p₀ ops hops (u, a₁, sm₁) (by rw [h])
  rw [h] at hr
  refine ⟨hr, ?_⟩
  obtain ⟨st, hst, w1, w2, _⟩ := hpsi
  obtain ⟨st', hst', w1', w2', _⟩ := hpsi'
  have h0 := h
  rw [hst] at h0
  obtain ⟨p, jt, E, G, res, atS, p', hp, hm, hd, hs, _, _, hn, hz⟩ :=
    tdvpCall_ok env cfg r v t k sm sm₁ a a₁ st psi₁ u h0
  rw [w1, w2] at hp
  obtain ⟨sm₂, hm₂⟩ := hj p t sm'
  obtain ⟨sm₃, hm₃⟩ := hj p t sm
  rw [hm] at hm₃
  obtain ⟨rfl, rfl⟩ := Prod.mk.inj (Except.ok.inj hm₃)
  obtain ⟨u', a₂, hret⟩ := c44_returns env cfg hc hc' ht r v t k sm' sm₂ a' p₀ ops' hops' (by rw [hst']; simp) p hp
    (joint p t) hm₂ (hjj p t).2.1 (hjj p t).2.2 (hjj p t).1
  refine ⟨a₂, sm₂, ?_⟩
  rw [hret]
  have h1 := hret
  rw [hst'] at h1
  obtain ⟨q, jt', E', G', res', atS', q', hq, hm', hd', hs', _, _, hn', hz'⟩ :=
    tdvpCall_ok env cfg r v t k sm' sm₂ a' a₂ st' _ u' h1
  rw [w1', w2', hp] at hq
  obtain rfl := Except.ok.inj hq
  rw [hm₂] at hm'
  obtain ⟨rfl, _⟩ := Prod.mk.inj (Except.ok.inj hm')
  obtain rfl : E = E' := Except.ok.inj (hd.1.symm.trans hd'.1)
  obtain rfl : G = G' := Except.ok.inj (hd.2.symm.trans hd'.2)
  obtain ⟨_, _, _, _, _, hsol⟩ := solve_attrs cfg r _ a atS res hs
  have hres : ∀ b x y, tdvpSolve cfg r (some (E, G)) b = .ok (x, y) → x = res := by
    intro b x y hb
    rw [hsol b] at hb
    exact (congrArg Prod.fst (Except.ok.inj hb)).symm
  have huu : ∀ (b b₁ : TdvpAttrs n) (x : SolveRes n) (bS : TdvpAttrs n) (w : Flt (Fin (n + 1) → ℝ)),
      tdvpSolve cfg r (some (E, G)) b = .ok (x, bS) →
      (k ≠ some 0 → w = x.update ∧ b₁ = bS) → (k = some 0 → ∃ err, getTdvpError { bS with eloc0 := bS.eqn.map fun e => e.map fun x =>
          (x.elocMean, x.elocVar) } x.update = .ok err ∧
        (cfg.crossValidation = false → w = x.update ∧ b₁ = { bS with
          eloc0 := bS.eqn.map fun e => e.map fun x => (x.elocMean, x.elocVar)
          metaData := some ⟨err, x.residual, x.cutoff, bS.snr.getD fun _ => .nan,
            (bS.spectrum.getD none).map fun sp => sp.ev, none⟩ }) ∧
        (cfg.crossValidation = true → crossValidate cfg r E G ⟨err, x.residual, x.cutoff,
          bS.snr.getD fun _ => .nan, (bS.spectrum.getD none).map fun sp => sp.ev, none⟩
          { bS with
            eloc0 := bS.eqn.map fun e => e.map fun x => (x.elocMean, x.elocVar)
            metaData := some ⟨err, x.residual, x.cutoff, bS.snr.getD fun _ => .nan,
              (bS.spectrum.getD none).map fun sp => sp.ev, none⟩ } = .ok (w, b₁))) → w = res.update := by
    intro b b₁ x bS w hsolve h1 h2
    have hx := hres _ _ _ hsolve
    by_cases hk : k = some 0
    · obtain ⟨err, _, hf, htr⟩ := h2 hk
      cases hcv : cfg.crossValidation with
      | false => rw [(hf hcv).1, hx]
      | true =>
        obtain ⟨res'', _, _, hs'', hu'', _⟩ := crossValidate_ok _ r E G _ _ b₁ w (htr hcv)
        rw [hu'', hres _ _ _ hs'']
    · rw [(h1 hk).1, hx]
  rw [huu a a₁ res atS u hs hn hz, huu a' a₂ res' atS' u' hs' hn' hz']

/-- A step whose result does not depend on the history, and which leaves `psi` as it was. -/
def Reproducible (p₀ : Params)
    (step : ℝ → (Fin (n + 1) → ℝ) → SimRhs n smp → ((Fin (n + 1) → ℝ) × ℝ) × SimRhs n smp) : Prop :=
  ∀ t y psi psi' rhs rhs' out psi₁ rhs₁, IsNetwork p₀ psi → IsNetwork p₀ psi' →
    step t y (.ok (psi, rhs)) = (out, .ok (psi₁, rhs₁)) →
    psi₁ = psi ∧ ∃ rhs₂, step t y (.ok (psi', rhs')) = (out, .ok (psi', rhs₂))

theorem tdvpRhs_reproducible (env : TdvpEnv n smp) (cfg : TdvpCfg n) (hc : 0 < cfg.pinvCutoff)
    (hc' : cfg.pinvCutoff < 1e-2) (ht : cfg.pinvTol < 1) (r : ℕ) (henv : Stateless env r) (p₀ : Params)
    (y : Fin (n + 1) → ℝ) (t : ℝ) (k : ℕ) (psi psi' : NqsState) (hpsi : IsNetwork p₀ psi)
    (hpsi' : IsNetwork p₀ psi') (rhs rhs' rhs₁ : smp × TdvpAttrs n) (u : Fin (n + 1) → ℝ) (psi₁ : NqsState)
    (h : tdvpRhs env cfg r y t k (.ok (psi, rhs)) = (u, .ok (psi₁, rhs₁))) :
    psi₁ = psi ∧ ∃ rhs₂, tdvpRhs env cfg r y t k (.ok (psi', rhs')) = (u, .ok (psi', rhs₂)) := by
  obtain ⟨sm, a⟩ := rhs
  obtain ⟨sm', a'⟩ := rhs'
  unfold tdvpRhs at h ⊢
  dsimp only at h ⊢
  cases hcall : (tdvpCall env cfg r (List.ofFn y) t (some k) sm a).call psi with
  | mk res ps =>
    rw [hcall] at h
    cases res with
    | error e => cases h
    | ok x =>
      obtain ⟨w, a₁, sm₁⟩ := x
      cases w with
      | none => cases h
      | some w =>
        cases h
        obtain ⟨h1, a₂, sm₂, h2⟩ := tdvpCall_reproducible env cfg hc hc' ht r henv p₀ _ t _ psi psi' hpsi hpsi' sm sm' sm₁
          a a' a₁ _ _ hcall
        exact ⟨h1, (sm₂, a₂), by rw [h2]⟩

theorem tdvpRhs_error (env : TdvpEnv n smp) (cfg : TdvpCfg n) (r : ℕ) (y : Fin (n + 1) → ℝ) (t : ℝ) (k : ℕ) (e : PyErr) :
    tdvpRhs env cfg r y t k (.error e) = (0, .error e) := rfl

/-- Steps of `Euler` and `Heun` for a TDVP object with exact sampling. -/
theorem fixedStep_reproducible (heun : Bool) (dt : ℝ) (env : TdvpEnv n smp) (cfg : TdvpCfg n) (hc : 0 < cfg.pinvCutoff)
    (hc' : cfg.pinvCutoff < 1e-2) (ht : cfg.pinvTol < 1) (r : ℕ) (henv : Stateless env r) (p₀ : Params) :
    Reproducible p₀ (fixedStep heun dt (tdvpRhs env cfg r)) := by
  intro t y psi psi' rhs rhs' out psi₁ rhs₁ hpsi hpsi' h
  have key := fun (k : ℕ) (t : ℝ) (y : Fin (n + 1) → ℝ) (rhs rhs' rhs₁ : smp × TdvpAttrs n) (u : Fin (n + 1) → ℝ)
    (psi₁ : NqsState) => tdvpRhs_reproducible env cfg hc hc' ht r henv p₀ y t k psi psi' hpsi hpsi' rhs rhs' rhs₁ u psi₁
  unfold fixedStep at h ⊢
  cases heun with
  | false =>
    simp only [Bool.false_eq_true, if_false] at h ⊢
    unfold eulerStep at h ⊢
    cases hf : tdvpRhs env cfg r y t 0 (.ok (psi, rhs)) with
    | mk u s =>
      rw [hf] at h
      dsimp only at h
      obtain ⟨rfl, rfl⟩ := Prod.mk.inj h
      obtain ⟨h1, rhs₂, h2⟩ := key 0 t y rhs rhs' rhs₁ u psi₁ hf
      exact ⟨h1, rhs₂, by rw [h2]⟩
  | true =>
    simp only [if_true] at h ⊢
    unfold heunStep at h ⊢
    dsimp only at h ⊢
    cases hf : tdvpRhs env cfg r y t 0 (.ok (psi, rhs)) with
    | mk k0 s =>
      rw [hf] at h
      dsimp only at h
      cases s with
      | error e => rw [tdvpRhs_error] at h; cases h
      | ok s =>
        obtain ⟨psi₂, rhs₂⟩ := s
        obtain ⟨rfl, rhs₃, h3⟩ := key 0 t y rhs rhs' rhs₂ k0 psi₂ hf
        cases hf1 : tdvpRhs env cfg r (y + dt • k0) (t + dt) 1 (.ok (psi₂, rhs₂)) with
        | mk k1 s1 =>
          rw [hf1] at h
          dsimp only at h
          obtain ⟨rfl, rfl⟩ := Prod.mk.inj h
          obtain ⟨h4, rhs₄, h5⟩ := key 1 (t + dt) (y + dt • k0) rhs₂ rhs₃ rhs₁ k1 psi₁ hf1
          exact ⟨h4, rhs₄, by rw [h3]; dsimp only; rw [h5]⟩

/-! ## The output of a pass -/

theorem intended_not_checkpoint (G : List String) : ∀ ops : List OmOp, (∀ op ∈ ops, Natural op) →
    (∀ op ∈ ops, ∀ g, op ≠ .setGroup g) → (∀ op ∈ ops, ∀ t w, op ≠ .writeCheckpoint t w) →
    ops.foldl selected G = G ∧ ∀ w ∈ intended G ops, ∃ c rest, w.1 = G ++ c :: rest ∧ c ≠ "network_checkpoints"
  | [], _, _, _ => ⟨rfl, by intro w hw; cases hw⟩
  | op :: ops, hn, hg, hc => by
    obtain ⟨h1, h2⟩ := intended_not_checkpoint G ops (fun o ho => hn o (by simp [ho])) (fun o ho => hg o (by simp [ho]))
      (fun o ho => hc o (by simp [ho]))
    have hsel : selected G op = G := by
      cases op with
      | setGroup g => exact absurd rfl (hg _ (by simp) g)
      | _ => rfl
    refine ⟨by rw [List.foldl_cons, hsel, h1], ?_⟩
    intro w hw
    unfold intended at hw
    rw [hsel] at hw
    rcases List.mem_append.mp hw with hw | hw
    · cases op with
      | setGroup g => exact absurd rfl (hg _ (by simp) g)
      | writeCheckpoint t v => exact absurd rfl (hc _ (by simp) t v)
      | writeError _ _ => exact (hn _ (List.mem_cons_self ..)).elim
      | writeDataset _ _ _ => exact (hn _ (List.mem_cons_self ..)).elim
      | writeObservables t kw =>
        rcases List.mem_cons.mp hw with rfl | hw
        · exact ⟨"observables", _, rfl, by decide⟩
        · obtain ⟨k, _, hw⟩ := List.mem_flatMap.mp hw
          obtain ⟨m, _, hw⟩ := List.mem_flatMap.mp hw
          obtain ⟨v, _, rfl⟩ := List.mem_map.mp hw
          exact ⟨"observables", _, rfl, by decide⟩
      | writeMetadata t kw =>
        rcases List.mem_cons.mp hw with rfl | hw
        · exact ⟨"metadata", _, rfl, by decide⟩
        · obtain ⟨k, _, hw⟩ := List.mem_flatMap.mp hw
          obtain ⟨v, _, rfl⟩ := List.mem_map.mp hw
          exact ⟨"metadata", _, rfl, by decide⟩
    · exact h2 w hw

/-- The calls of a pass. -/
noncomputable def passOps (record : ℝ → List ℝ → List OmOp) (t : ℝ) (w : List ℝ) : List OmOp :=
  record t w ++ [.writeCheckpoint t (some (vecArr w))]

section

variable {G : List String} {m : ℕ} {record : ℝ → List ℝ → List OmOp}

theorem passOps_natural (hr : Records G m record) (t : ℝ) (w : List ℝ) : ∀ op ∈ passOps record t w, Natural op := by
  intro op hop
  rcases List.mem_append.mp hop with h | h
  · exact hr.natural t w op h
  · rw [List.mem_singleton] at h
    subst h
    exact rfl

theorem passOps_group (hr : Records G m record) (t : ℝ) (w : List ℝ) : ∀ op ∈ passOps record t w, ∀ g, op ≠ .setGroup g := by
  intro op hop
  rcases List.mem_append.mp hop with h | h
  · exact hr.same_group t w op h
  · rw [List.mem_singleton] at h
    subst h
    intro g hg
    cases hg

theorem passOps_intended (hr : Records G m record) (t : ℝ) (w : List ℝ) : intended G (passOps record t w)
    = intended G (record t w) ++ [(G ++ ["network_checkpoints", "times"], scalarArr t),
      (G ++ ["network_checkpoints", "checkpoints"], vecArr w)] := by
  unfold passOps
  rw [intended_append, (intended_not_checkpoint G _ (hr.natural t w) (hr.same_group t w) (hr.no_checkpoint t w)).1]
  rfl

theorem records_no_checkpoint (hr : Records G m record) (t : ℝ) (w : List ℝ) (x : List String × NdArr)
    (hx : x ∈ intended G (record t w)) (k : String) : x.1 ≠ G ++ ["network_checkpoints", k] := by
  obtain ⟨c, rest, h, hc⟩ := (intended_not_checkpoint G _ (hr.natural t w) (hr.same_group t w) (hr.no_checkpoint t w)).2 x hx
  rw [h]
  intro h'
  have := List.append_cancel_left h'
  exact hc (List.cons.inj this).1

theorem passOps_shapes (hr : Records G m record) : ∃ shape : List String → List ℕ, ∀ t w, w.length = m →
    ∀ x ∈ intended G (passOps record t w), shape x.1 = x.2.shape := by
  classical
  let P : List String → List String × NdArr → Prop := fun p x =>
    x.1 = p ∧ ∃ t w, w.length = m ∧ x ∈ intended G (passOps record t w)
  refine ⟨fun p => if hp : ∃ x, P p x then (Classical.choose hp).2.shape else [], ?_⟩
  intro t w hw x hx
  have hp : ∃ y, P x.1 y := ⟨x, rfl, t, w, hw, hx⟩
  dsimp only
  rw [dif_pos hp]
  obtain ⟨h1, t', w', hw', hx'⟩ := Classical.choose_spec hp
  generalize Classical.choose hp = y at h1 hx'
  rw [passOps_intended hr] at hx hx'
  have hlast : ∀ (t : ℝ) (w : List ℝ) (x : List String × NdArr), w.length = m → x ∈ [(G ++ ["network_checkpoints", "times"], scalarArr t),
      (G ++ ["network_checkpoints", "checkpoints"], vecArr w)] → (x.1 = G ++ ["network_checkpoints", "times"] ∧ x.2.shape = [])
      ∨ (x.1 = G ++ ["network_checkpoints", "checkpoints"] ∧ x.2.shape = [m]) := by
    intro t w x hw hx
    rcases List.mem_cons.mp hx with rfl | hx
    · exact .inl ⟨rfl, rfl⟩
    · rw [List.mem_singleton] at hx
      subst hx
      exact .inr ⟨rfl, by change [w.length] = _; rw [hw]⟩
  have hnot : ∀ (t t' : ℝ) (w w' : List ℝ) (x y : List String × NdArr), w'.length = m → x ∈ intended G (record t w) →
      y ∈ [(G ++ ["network_checkpoints", "times"], scalarArr t'),
      (G ++ ["network_checkpoints", "checkpoints"], vecArr w')] → x.1 ≠ y.1 := by
    intro t t' w w' x y hw' hx hy h
    rcases hlast t' w' y hw' hy with ⟨h', _⟩ | ⟨h', _⟩
    · exact records_no_checkpoint hr t w x hx _ (h.trans h')
    · exact records_no_checkpoint hr t w x hx _ (h.trans h')
  rcases List.mem_append.mp hx with hx | hx <;> rcases List.mem_append.mp hx' with hx' | hx'
  · exact hr.shapes t' w' t w hw' hw y (List.mem_append_left _ hx') x (List.mem_append_right _ hx) h1
  · exact absurd h1.symm (hnot t t' w w' x y hw' hx hx')
  · exact absurd h1 (hnot t' t w' w y x hw hx' hx)
  · rcases hlast t w x hw hx with ⟨a, b⟩ | ⟨a, b⟩ <;> rcases hlast t' w' y hw' hx' with ⟨a', b'⟩ | ⟨a', b'⟩
    · rw [b, b']
    · rw [h1, a] at a'
      exact absurd (List.append_cancel_left a') (by decide)
    · rw [h1, a] at a'
      exact absurd (List.append_cancel_left a') (by decide)
    · rw [b, b']

end

/-- Between the passes of a script. -/
structure OmReady (shape : List String → List ℕ) (G : List String) (om : OmState) : Prop where
  append : om.obj.append = true
  path : om.obj.currentGroup.path = G
  files : Always (Declared (libDecl shape)) om.log
  group : om.log.now G = some .group

theorem omAll_eq : ∀ (ops : List OmOp) (s : OmState),
    (∀ pre op post, ops = pre ++ op :: post → (omCall (omRun s pre) op).1 = .ok ()) → omAll s ops = .ok (omRun s ops)
  | [], _, _ => rfl
  | op :: ops, s, h => by
    have h0 : (omCall s op).1 = .ok () := h [] op ops rfl
    have h1 := omAll_eq ops (omCall s op).2 (fun pre o post e => h (op :: pre) o post (by rw [e]; rfl))
    unfold omAll
    cases hc : omCall s op with
    | mk r s' =>
      rw [hc] at h0 h1
      dsimp only at h0 h1
      subst h0
      dsimp only
      rw [h1]
      change _ = Except.ok (omRun (omCall s op).2 ops)
      rw [hc]

/-- What the calls of a pass do. -/
theorem pass_writes {shape : List String → List ℕ} {G : List String} (hG : GroupPath G) (om : OmState)
    (h : OmReady shape G om) (ops : List OmOp) (hn : ∀ op ∈ ops, Natural op) (hg : ∀ op ∈ ops, ∀ g, op ≠ .setGroup g)
    (hs : ∀ x ∈ intended G ops, shape x.1 = x.2.shape) :
    ∃ om', omAll om ops = .ok om' ∧ OmReady shape G om' ∧
      (∀ q, rowsAt om'.log.now q
        = rowsAt om.log.now q ++ ((intended G ops).filter fun w => w.1 = q).map fun w => NdArr.row w.2) ∧
      ∃ new, om'.log.past = new ++ om.log.past ∧ ∀ g ∈ om'.log.now :: new, Intact om.log.now g := by
  obtain ⟨⟨cur, app⟩, ⟨f, past⟩⟩ := om
  obtain ⟨ha, hp, hf, hgr⟩ := h
  dsimp only at ha hp hf hgr
  subst ha
  subst hp
  have hfit := intended_fits shape ops cur.path hG hn hs
  have hset : ∀ g, .setGroup g ∈ ops → ∀ q, q <+: g.path → libDecl shape q = none := fun g hg' => absurd rfl (hg _ hg' g)
  obtain ⟨c', f', new, e, s, d, g', r, i, j, k⟩ :=
    run_general (libDecl_prefixFree shape) ops cur f past hn hf.1 hgr hfit hset
  have hal := run_always (libDecl_prefixFree shape) ops cur f past hn hf hgr hfit hset
  have hsel : ops.foldl selected cur.path = cur.path := by
    clear hfit hset e s d g' r i j k hal hs hn
    induction ops with
    | nil => rfl
    | cons op ops ih =>
      rw [List.foldl_cons]
      have : selected cur.path op = cur.path := by
        cases op with
        | setGroup g => exact absurd rfl (hg _ (by simp) g)
        | _ => rfl
      rw [this]
      exact ih fun o ho => hg o (by simp [ho])
  rw [hsel] at s
  refine ⟨_, omAll_eq ops _ k, ?_⟩
  rw [e] at hal ⊢
  refine ⟨⟨rfl, s, hal, by rw [← s]; exact g'⟩, r, new, rfl, ?_⟩
  intro g hg'
  rcases List.mem_cons.mp hg' with rfl | hg'
  · exact i
  · exact j g hg'

/-! ## Passes -/

/-- The state of `psi` with given parameters. -/
noncomputable def netState (p₀ p : Params) : NqsState := some ⟨p₀.isReal, p₀.sizes, p⟩

theorem isNetwork_iff (p₀ : Params) (psi : NqsState) : IsNetwork p₀ psi ↔
    ∃ p : Params, psi = netState p₀ p ∧ p.isReal = p₀.isReal ∧ p.sizes = p₀.sizes := by
  constructor
  · rintro ⟨⟨r, s, p⟩, rfl, rfl, rfl, h3, h4⟩
    exact ⟨p, rfl, h3, h4⟩
  · rintro ⟨p, rfl, h3, h4⟩
    exact ⟨_, rfl, rfl, rfl, h3, h4⟩

theorem netState_set (p₀ p p' : Params) (v : List ℝ) (hp' : p'.isReal = p₀.isReal) (hs' : p'.sizes = p₀.sizes)
    (hv : flattenParams p' = v) : (setParameters (.vec v)).call (netState p₀ p) = (.ok (), netState p₀ p') := by
  have h : paramUnflatten p₀.isReal p₀.sizes v = .ok p' := by
    rw [← hv, ← hp', ← hs']
    exact flattenParams_unflatten p'
  unfold netState
  rw [call_setVec]
  dsimp only
  rw [h]

/-- The first half of a pass: the new time and parameters. -/
theorem simPass_ok (p₀ : Params) (hsize : (flattenParams p₀).length = n + 1)
    (step : ℝ → (Fin (n + 1) → ℝ) → SimRhs n smp → ((Fin (n + 1) → ℝ) × ℝ) × SimRhs n smp) (hstep : Reproducible p₀ step)
    (record : ℝ → List ℝ → List OmOp) (x x' : Sim n smp) (hx : IsNetwork p₀ x.psi) (h : simPass step record x = .ok x') :
    ∃ p : Params, x'.psi = netState p₀ p ∧ IsNetwork p₀ x'.psi ∧ (flattenParams p).length = n + 1 ∧
      omAll x.om (passOps record x'.t (flattenParams p)) = .ok x'.om ∧
      ∀ z : Sim n smp, z.t = x.t → z.psi = x.psi → ∀ om', omAll z.om (passOps record x'.t (flattenParams p)) = .ok om' →
        ∃ rhs', simPass step record z = .ok ⟨x'.t, x'.psi, rhs', om'⟩ := by
  obtain ⟨p, hp, hr, hsz⟩ := (isNetwork_iff p₀ _).mp hx
  obtain ⟨t, psi, rhs, om⟩ := x
  dsimp only at hp hx
  subst hp
  unfold simPass at h
  have hget : getParameters.call (netState p₀ p) = (.ok (some (flattenParams p)), netState p₀ p) := rfl
  dsimp only at h
  rw [hget] at h
  dsimp only at h
  cases hs : step t (fun i => (flattenParams p).getD i 0) (.ok (netState p₀ p, rhs)) with
  | mk out s =>
    rw [hs] at h
    obtain ⟨y, d⟩ := out
    cases s with
    | error e => cases h
    | ok s =>
      obtain ⟨psi₁, rhs₁⟩ := s
      obtain ⟨rfl, _⟩ := hstep t _ _ _ rhs rhs _ psi₁ rhs₁ hx hx hs
      obtain ⟨q, _, q1, q2, q3⟩ := paramUnflatten_ok p₀.isReal p₀.sizes (List.ofFn y) (by
        rw [List.length_ofFn, ← flatten_length_params, hsize])
      have hcall : (do setParameters (.vec (List.ofFn y)); getParameters : PsiM _).call (netState p₀ p)
          = (.ok (some (List.ofFn y)), netState p₀ q) := by
        rw [call_bind, netState_set p₀ p q _ q1 q2 q3]
        change (Except.ok (some (flattenParams q)), netState p₀ q) = _
        rw [q3]
      dsimp only at h
      rw [hcall] at h
      dsimp only at h
      cases ho : omAll om (record (t + d) (List.ofFn y) ++ [.writeCheckpoint (t + d) (some (vecArr (List.ofFn y)))]) with
      | error e => rw [ho] at h; cases h
      | ok om₁ =>
        rw [ho] at h
        cases h
        refine ⟨q, rfl, (isNetwork_iff p₀ _).mpr ⟨q, rfl, q1, q2⟩, by rw [q3, List.length_ofFn], by rw [q3]; exact ho, ?_⟩
        rintro ⟨t', psi', rhs', om'⟩ h1 h2 om₂ h3
        dsimp only at h1 h2 h3
        subst h1
        subst h2
        obtain ⟨_, rhs₂, hz⟩ := hstep t' _ _ _ rhs rhs' _ _ rhs₁ hx hx hs
        refine ⟨rhs₂, ?_⟩
        unfold simPass
        dsimp only
        rw [hget]
        dsimp only
        rw [hz]
        dsimp only
        rw [hcall]
        dsimp only
        rw [q3] at h3
        unfold passOps at h3
        rw [h3]
        rfl

/-- Two scripts at the same time with the same parameters do the same. -/
theorem simRun_same (p₀ : Params) (hsize : (flattenParams p₀).length = n + 1)
    (step : ℝ → (Fin (n + 1) → ℝ) → SimRhs n smp → ((Fin (n + 1) → ℝ) × ℝ) × SimRhs n smp) (hstep : Reproducible p₀ step)
    (record : ℝ → List ℝ → List OmOp) {G : List String} (hG : GroupPath G) (hrec : Records G (n + 1) record)
    (shape : List String → List ℕ)
    (hshape : ∀ t w, w.length = n + 1 → ∀ x ∈ intended G (passOps record t w), shape x.1 = x.2.shape) :
    ∀ (k : ℕ) (x y z : Sim n smp), IsNetwork p₀ x.psi → OmReady shape G x.om → OmReady shape G z.om → z.t = x.t →
      z.psi = x.psi → simRun step record k x = .ok y →
      IsNetwork p₀ y.psi ∧ OmReady shape G y.om ∧
      (∃ new, y.om.log.past = new ++ x.om.log.past ∧ ∀ g ∈ y.om.log.now :: new, Intact x.om.log.now g) ∧
      ∃ y', simRun step record k z = .ok y' ∧ y'.t = y.t ∧ y'.psi = y.psi ∧
        ∃ R : List String → List (List ℕ → ℝ), ∀ q, rowsAt y.om.log.now q = rowsAt x.om.log.now q ++ R q ∧
          rowsAt y'.om.log.now q = rowsAt z.om.log.now q ++ R q
  | 0, x, y, z, hx, hox, _, ht, hpsi, h => by
    cases h
    exact ⟨hx, hox, ⟨[], rfl, by simpa using intact_refl _⟩, z, rfl, ht, hpsi, fun _ => [], by simp⟩
  | k + 1, x, y, z, hx, hox, hoz, ht, hpsi, h => by
    change (simPass step record x >>= fun x' => simRun step record k x') = _ at h
    cases h1 : simPass step record x with
    | error e => rw [h1] at h; cases h
    | ok x' =>
      rw [h1] at h
      change simRun step record k x' = .ok y at h
      obtain ⟨p, _, hnet, hlen, hom, hz⟩ := simPass_ok p₀ hsize step hstep record x x' hx h1
      obtain ⟨om₁, e1, r1, rows1, new1, p1, i1⟩ := pass_writes hG x.om hox _ (passOps_natural hrec x'.t (flattenParams p))
        (passOps_group hrec x'.t (flattenParams p)) (hshape _ _ hlen)
      rw [hom] at e1
      cases e1
      obtain ⟨om₂, e2, r2, rows2, new2, p2, i2⟩ := pass_writes hG z.om hoz _ (passOps_natural hrec x'.t (flattenParams p))
        (passOps_group hrec x'.t (flattenParams p)) (hshape _ _ hlen)
      obtain ⟨rhs', hz'⟩ := hz z ht hpsi om₂ e2
      obtain ⟨a1, a2, ⟨new, a3, a4⟩, y', a5, a6, a7, R, a8⟩ := simRun_same p₀ hsize step hstep record hG hrec shape hshape k
        x' y ⟨x'.t, x'.psi, rhs', om₂⟩ hnet r1 r2 rfl rfl h
      refine ⟨a1, a2, ⟨new ++ new1, by rw [a3, p1, List.append_assoc], ?_⟩, y', ?_, a6, a7, fun q =>
        (((intended G (passOps record x'.t (flattenParams p))).filter fun w => w.1 = q).map fun w => NdArr.row w.2) ++ R q,
        fun q => ⟨?_, ?_⟩⟩
      · intro g hg
        rw [← List.cons_append] at hg
        rcases List.mem_append.mp hg with hg | hg
        · exact intact_trans (i1 _ (by simp)) (a4 g hg)
        · exact i1 g (by simp [hg])
      · change (simPass step record z >>= fun x' => simRun step record k x') = _
        rw [hz']
        exact a5
      · rw [(a8 q).1, rows1, List.append_assoc]
      · rw [(a8 q).2]
        change rowsAt om₂.log.now q ++ _ = _
        rw [rows2, List.append_assoc]

theorem filter_checkpoint {G : List String} {record : ℝ → List ℝ → List OmOp} (hrec : Records G (n + 1) record) (t : ℝ)
    (w : List ℝ) :
    (((intended G (passOps record t w)).filter fun x => x.1 = G ++ ["network_checkpoints", "times"]).map
      fun x => NdArr.row x.2) = [NdArr.row (scalarArr t)] ∧
    (((intended G (passOps record t w)).filter fun x => x.1 = G ++ ["network_checkpoints", "checkpoints"]).map
      fun x => NdArr.row x.2) = [NdArr.row (vecArr w)] := by
  have h0 : ∀ k : String, (intended G (record t w)).filter (fun x => x.1 = G ++ ["network_checkpoints", k]) = [] := by
    intro k
    rw [List.filter_eq_nil_iff]
    intro x hx
    simpa using records_no_checkpoint hrec t w x hx k
  rw [passOps_intended hrec, List.filter_append, List.filter_append, h0, h0]
  constructor <;> simp

/-- The checkpoints after some passes. -/
theorem simRun_checkpoints (p₀ : Params) (hsize : (flattenParams p₀).length = n + 1)
    (step : ℝ → (Fin (n + 1) → ℝ) → SimRhs n smp → ((Fin (n + 1) → ℝ) × ℝ) × SimRhs n smp) (hstep : Reproducible p₀ step)
    (record : ℝ → List ℝ → List OmOp) {G : List String} (hG : GroupPath G) (hrec : Records G (n + 1) record)
    (shape : List String → List ℕ)
    (hshape : ∀ t w, w.length = n + 1 → ∀ x ∈ intended G (passOps record t w), shape x.1 = x.2.shape) :
    ∀ (k : ℕ) (x y : Sim n smp), IsNetwork p₀ x.psi → OmReady shape G x.om → simRun step record (k + 1) x = .ok y →
      ∃ (cs : List (ℝ × List ℝ)) (p : Params), cs.length = k ∧ y.psi = netState p₀ p ∧ (flattenParams p).length = n + 1 ∧
      p.isReal = p₀.isReal ∧ p.sizes = p₀.sizes ∧
      rowsAt y.om.log.now (G ++ ["network_checkpoints", "times"]) = rowsAt x.om.log.now (G ++ ["network_checkpoints", "times"])
        ++ (cs ++ [(y.t, flattenParams p)]).map (fun c => NdArr.row (scalarArr c.1)) ∧
      rowsAt y.om.log.now (G ++ ["network_checkpoints", "checkpoints"])
        = rowsAt x.om.log.now (G ++ ["network_checkpoints", "checkpoints"])
        ++ (cs ++ [(y.t, flattenParams p)]).map (fun c => NdArr.row (vecArr c.2))
  | k, x, y, hx, hox, h => by
    change (simPass step record x >>= fun x' => simRun step record k x') = _ at h
    cases h1 : simPass step record x with
    | error e => rw [h1] at h; cases h
    | ok x' =>
      rw [h1] at h
      change simRun step record k x' = .ok y at h
      obtain ⟨p, hpsi, hnet, hlen, hom, _⟩ := simPass_ok p₀ hsize step hstep record x x' hx h1
      obtain ⟨om₁, e1, r1, rows1, _⟩ := pass_writes hG x.om hox _ (passOps_natural hrec x'.t (flattenParams p))
        (passOps_group hrec x'.t (flattenParams p)) (hshape _ _ hlen)
      rw [hom] at e1
      cases e1
      obtain ⟨f1, f2⟩ := filter_checkpoint hrec x'.t (flattenParams p)
      have g1 := rows1 (G ++ ["network_checkpoints", "times"])
      have g2 := rows1 (G ++ ["network_checkpoints", "checkpoints"])
      rw [f1] at g1
      rw [f2] at g2
      cases k with
      | zero =>
        cases h
        obtain ⟨q, hq, hr, hsz⟩ := (isNetwork_iff p₀ _).mp hnet
        rw [hpsi] at hq
        have hpq : p = q := by
          unfold netState at hq
          exact congrArg NqsInit.params (Option.some.inj hq)
        subst hpq
        exact ⟨[], p, rfl, hpsi, hlen, hr, hsz, g1, g2⟩
      | succ k =>
        obtain ⟨cs, q, c1, c2, c3, c4, c5, c6, c7⟩ := simRun_checkpoints p₀ hsize step hstep record hG hrec shape hshape k x' y
          hnet r1 h
        refine ⟨(x'.t, flattenParams p) :: cs, q, by rw [List.length_cons, c1], c2, c3, c4, c5, ?_, ?_⟩
        · rw [c6, g1, List.append_assoc]
          rfl
        · rw [c7, g2, List.append_assoc]
          rfl

theorem arrVec_row (w : List ℝ) : arrVec ⟨[w.length], NdArr.row (vecArr w)⟩ = w := by
  unfold arrVec
  apply List.ext_getElem
  · simp
  · intro i h1 h2
    simp [NdArr.row, vecArr, clip, h2]

/-- Opening a file again, at the `i`-th checkpoint. -/
theorem resume_at (p₀ p : Params) (hp : p.isReal = p₀.isReal) (hps : p.sizes = p₀.sizes)
    (hlen : (flattenParams p).length = n + 1) (shape : List String → List ℕ) (file : H5File)
    (hfile : Declared (libDecl shape) file) (group : HName) (hgroup : GroupPath group.path)
    (hshape : shape (group.path ++ ["network_checkpoints", "checkpoints"]) = [n + 1]) (t : ℝ) (i : ℕ) (idx : ℤ)
    (hT : (rowsAt file (group.path ++ ["network_checkpoints", "times"]))[i]? = some (NdArr.row (scalarArr t)))
    (hC : (rowsAt file (group.path ++ ["network_checkpoints", "checkpoints"]))[i]?
      = some (NdArr.row (vecArr (flattenParams p))))
    (hidx : idx = i ∨ (idx = -1 ∧ (rowsAt file (group.path ++ ["network_checkpoints", "times"])).length = i + 1 ∧
      (rowsAt file (group.path ++ ["network_checkpoints", "checkpoints"])).length = i + 1))
    (psi : NqsState) (hpsi : IsNetwork p₀ psi) (rhs : smp × TdvpAttrs n) :
    ∃ om, simResume file group idx psi rhs = .ok ⟨t, netState p₀ p, rhs, om⟩ ∧ OmReady shape group.path om ∧
      ∀ q, rowsAt om.log.now q = rowsAt file q := by
  obtain ⟨cur, f, past, e, hc, hf, hg, _, _, hrows⟩ := init_general shape (some file) group true hfile hgroup
  have hal := init_always shape (some file) group true hfile hgroup
  rw [e] at hal
  refine ⟨⟨⟨cur, true⟩, ⟨f, past⟩⟩, ?_, ⟨rfl, hc, hal, by rw [← hc]; exact hg⟩, hrows⟩
  change ∀ q, rowsAt f q = rowsAt file q at hrows
  rw [← hrows] at hT hC hidx
  rw [← hrows] at hidx
  obtain ⟨dT, hdT, rT⟩ := dset_of_rows (f := f) (p := group.path ++ ["network_checkpoints", "times"]) (by
    intro h; rw [h] at hT; cases hT)
  obtain ⟨dC, hdC, rC⟩ := dset_of_rows (f := f) (p := group.path ++ ["network_checkpoints", "checkpoints"]) (by
    intro h; rw [h] at hC; cases hC)
  rw [← rT] at hT hidx
  rw [← rC] at hC hidx
  have hsh : dC.rowShape = [n + 1] := by
    rcases hf.obj _ _ hdC with ⟨h, _⟩ | ⟨d, h, h', h'', _⟩
    · cases h
    · cases h
      rw [h'']
      unfold libDecl at h'
      split_ifs at h' with hh
      rw [hshape] at h'
      exact (Option.some.inj h').symm
  unfold simResume
  rw [e]
  dsimp only
  rw [getCheckpoint_idx f cur dT dC (by rw [hc]; exact hdT) (by rw [hc]; exact hdC) (-1) (by norm_num)]
  have key : ∀ {A : Type} (l : List A) (a : A), l[i]? = some a → (idx = i ∨ (idx = -1 ∧ l.length = i + 1)) →
      pyIndex l idx = .ok a := by
    intro A l a ha h
    rcases h with rfl | ⟨rfl, h⟩
    · exact pyIndex_nat l i a ha
    · have := pyIndex_neg l 0 a (by omega) (by rw [h]; simpa using ha)
      simpa using this
  rw [key _ _ hC (by tauto), key (dT.rows.map fun r => r []) t (by rw [List.getElem?_map, hT]; rfl) (by
    rw [List.length_map]; tauto)]
  obtain ⟨p', rfl, _, _⟩ := (isNetwork_iff p₀ psi).mp hpsi
  have harr := arrVec_row (flattenParams p)
  rw [hlen] at harr
  change (match (setParameters (.vec (arrVec ⟨dC.rowShape, _⟩))).call (netState p₀ p') with
    | (.error e, _) => Except.error e
    | (.ok _, psi) => Except.ok (⟨t, psi, rhs, ⟨⟨cur, true⟩, ⟨f, past⟩⟩⟩ : Sim n smp)) = _
  rw [hsh, harr, netState_set p₀ p' p _ hp hps rfl]

/-! ## Resumed simulations -/

/-- What is known about a simulation that runs for `k` passes and then for `m` more, and is interrupted at a moment of
these. -/
theorem resume_general (p₀ : Params) (hsize : (flattenParams p₀).length = n + 1)
    (step : ℝ → (Fin (n + 1) → ℝ) → SimRhs n smp → ((Fin (n + 1) → ℝ) × ℝ) × SimRhs n smp) (hstep : Reproducible p₀ step)
    (record : ℝ → List ℝ → List OmOp) (group : HName) (hgroup : GroupPath group.path)
    (hrec : Records group.path (n + 1) record) (fs : Option H5File) (x₀ x y : Sim n smp)
    (hom : x₀.om = (omInit fs group false).2) (hpsi₀ : IsNetwork p₀ x₀.psi) (k m : ℕ)
    (hx : simRun step record (k + 1) x₀ = .ok x) (hy : simRun step record m x = .ok y) :
    ∃ moments, y.om.log.past = moments ++ x.om.log.past ∧
      ∀ file, file ∈ y.om.log.now :: moments ∨ file = x.om.log.now →
      ∀ idx : ℤ, (idx = k ∨ (idx = -1 ∧ file = x.om.log.now)) →
      ∀ psi, IsNetwork p₀ psi → ∀ rhs, ∃ z y', simResume file group idx psi rhs = .ok z ∧ z.t = x.t ∧ z.psi = x.psi ∧
        simRun step record m z = .ok y' ∧ y'.t = y.t ∧ y'.psi = y.psi ∧
        ∃ R : List String → List (List ℕ → ℝ), ∀ q, rowsAt y.om.log.now q = rowsAt x.om.log.now q ++ R q ∧
          rowsAt y'.om.log.now q = rowsAt file q ++ R q := by
  obtain ⟨shape, hshape⟩ := passOps_shapes hrec
  have hsh : shape (group.path ++ ["network_checkpoints", "checkpoints"]) = [n + 1] := by
    have h := hshape 0 (flattenParams p₀) hsize
      (group.path ++ ["network_checkpoints", "checkpoints"], vecArr (flattenParams p₀)) (by
      rw [passOps_intended hrec]
      exact List.mem_append_right _ (by simp))
    rw [h]
    change [(flattenParams p₀).length] = _
    rw [hsize]
  have h0 : OmReady shape group.path x₀.om := by
    rw [hom]
    obtain ⟨cur, f, past, e, hc, hf, hg, _⟩ := init_general shape fs group false (declared_new shape) hgroup
    have hal := init_always shape fs group false (declared_new shape) hgroup
    rw [e] at hal ⊢
    exact ⟨rfl, hc, hal, by rw [← hc]; exact hg⟩
  have hrows0 : ∀ q, rowsAt x₀.om.log.now q = [] := by
    intro q
    obtain ⟨cur, f, past, e, hc, hf, hg, _, _, hr⟩ := init_general shape fs group false (declared_new shape) hgroup
    rw [hom, e]
    change rowsAt f q = _
    rw [hr]
    change rowsAt H5File.empty q = []
    unfold rowsAt H5File.empty
    split
    · next d hd => split_ifs at hd; cases hd
    · rfl
  obtain ⟨a1, a2, _⟩ := simRun_same p₀ hsize step hstep record hgroup hrec shape hshape (k + 1) x₀ x x₀ hpsi₀ h0 h0 rfl rfl hx
  obtain ⟨cs, p, c1, c2, c3, c4, c5, c6, c7⟩ := simRun_checkpoints p₀ hsize step hstep record hgroup hrec shape hshape k x₀ x
    hpsi₀ h0 hx
  rw [hrows0, List.nil_append] at c6 c7
  obtain ⟨_, b2, ⟨moments, b3, b4⟩, _⟩ := simRun_same p₀ hsize step hstep record hgroup hrec shape hshape m x y x a1 a2 a2
    rfl rfl hy
  refine ⟨moments, b3, ?_⟩
  intro file hfile idx hidx psi hpsi rhs
  have hint : Intact x.om.log.now file := by
    rcases hfile with h | rfl
    · exact b4 file h
    · exact intact_refl _
  have hdec : Declared (libDecl shape) file := by
    rcases hfile with h | rfl
    · rcases List.mem_cons.mp h with rfl | h
      · exact b2.files.1
      · exact b2.files.2 file (by rw [b3]; exact List.mem_append_left _ h)
    · exact a2.files.1
  have hpre : ∀ q, rowsAt x.om.log.now q <+: rowsAt file q := by
    intro q
    by_cases hq : rowsAt x.om.log.now q = []
    · rw [hq]; exact List.nil_prefix
    · obtain ⟨d, hd, hr⟩ := dset_of_rows hq
      obtain ⟨d', hd', _, hpre⟩ := hint q d hd
      rw [← hr]
      unfold rowsAt
      rw [hd']
      exact hpre
  obtain ⟨om, e1, e2, e3⟩ := resume_at (smp := smp) p₀ p c4 c5 c3 shape file hdec group hgroup hsh x.t k idx
    (by
      refine getElem?_of_prefix (hpre _) ?_
      rw [c6]
      simp [c1])
    (by
      refine getElem?_of_prefix (hpre _) ?_
      rw [c7]
      simp [c1])
    (by
      rcases hidx with h | ⟨h, rfl⟩
      · exact .inl h
      · refine .inr ⟨h, ?_, ?_⟩
        · rw [c6]; simp [c1]
        · rw [c7]; simp [c1]) psi hpsi rhs
  obtain ⟨_, _, _, y', d1, d2, d3, R, d4⟩ := simRun_same p₀ hsize step hstep record hgroup hrec shape hshape m x y
    ⟨x.t, netState p₀ p, rhs, om⟩ a1 a2 e2 rfl c2.symm hy
  refine ⟨_, y', e1, rfl, c2.symm, d1, d2, d3, R, fun q => ⟨(d4 q).1, ?_⟩⟩
  rw [(d4 q).2]
  change rowsAt om.log.now q ++ _ = _
  rw [e3]

theorem simRun_add
    (step : ℝ → (Fin (n + 1) → ℝ) → SimRhs n smp → ((Fin (n + 1) → ℝ) × ℝ) × SimRhs n smp)
    (record : ℝ → List ℝ → List OmOp) (m : ℕ) : ∀ (k : ℕ) (x : Sim n smp), simRun step record (k + m) x
      = (simRun step record k x >>= fun x' => simRun step record m x')
  | 0, x => by rw [Nat.zero_add]; rfl
  | k + 1, x => by
    rw [Nat.succ_add]
    change (simPass step record x >>= fun x' => simRun step record (k + m) x') = _
    change _ = ((simPass step record x >>= fun x' => simRun step record k x') >>= fun x' => simRun step record m x')
    cases simPass step record x with
    | error e => rfl
    | ok x' =>
      change simRun step record (k + m) x' = (simRun step record k x' >>= fun x' => simRun step record m x')
      exact simRun_add step record m k x'

/-- **C99**: a script with `Euler` or `Heun`, exact sampling and a checkpoint at the end of every pass is stopped after
`k` passes. Started again with new objects for the same network, at the last checkpoint, it reaches after `m` passes
the same time and the same parameters as without interruption, and the output file has the same rows everywhere. -/
theorem c99_resume_partial (heun : Bool) (dt : ℝ) (env : TdvpEnv n smp) (cfg : TdvpCfg n) (hc : 0 < cfg.pinvCutoff)
    (hc' : cfg.pinvCutoff < 1e-2) (ht : cfg.pinvTol < 1) (r : ℕ) (henv : Stateless env r) (p₀ : Params)
    (hsize : (flattenParams p₀).length = n + 1) (record : ℝ → List ℝ → List OmOp) (group : HName)
    (hgroup : GroupPath group.path) (hrec : Records group.path (n + 1) record) (fs : Option H5File) (x₀ x y : Sim n smp)
    (hom : x₀.om = (omInit fs group false).2) (hpsi₀ : IsNetwork p₀ x₀.psi) (k m : ℕ) (hk : 0 < k)
    (hx : simRun (fixedStep heun dt (tdvpRhs env cfg r)) record k x₀ = .ok x)
    (hy : simRun (fixedStep heun dt (tdvpRhs env cfg r)) record (k + m) x₀ = .ok y)
    (psi : NqsState) (hpsi : IsNetwork p₀ psi) (rhs : smp × TdvpAttrs n) :
    ∃ z y', simResume x.om.log.now group (-1) psi rhs = .ok z ∧
      simRun (fixedStep heun dt (tdvpRhs env cfg r)) record m z = .ok y' ∧ y'.t = y.t ∧ y'.psi = y.psi ∧
      ∀ q, rowsAt y'.om.log.now q = rowsAt y.om.log.now q := by
  obtain ⟨k, rfl⟩ : ∃ j, k = j + 1 := ⟨k - 1, by omega⟩
  rw [simRun_add, hx] at hy
  obtain ⟨_, _, h⟩ := resume_general p₀ hsize _ (fixedStep_reproducible heun dt env cfg hc hc' ht r henv p₀) record group
    hgroup hrec fs x₀ x y hom hpsi₀ k m hx hy
  obtain ⟨z, y', h1, _, _, h2, h3, h4, R, h5⟩ := h x.om.log.now (.inr rfl) (-1) (.inr ⟨rfl, rfl⟩) psi hpsi rhs
  exact ⟨z, y', h1, h2, h3, h4, fun q => by rw [(h5 q).1, (h5 q).2]⟩

/-- **C99**, crash points: the script crashes at any moment after `k` complete passes, also in the middle of a call that
writes. The file that is left can be opened, `idx=k-1` returns the time and the parameters after these passes, and the
resumed script goes on as the other one would have done. -/
theorem c99_crash_partial (heun : Bool) (dt : ℝ) (env : TdvpEnv n smp) (cfg : TdvpCfg n) (hc : 0 < cfg.pinvCutoff)
    (hc' : cfg.pinvCutoff < 1e-2) (ht : cfg.pinvTol < 1) (r : ℕ) (henv : Stateless env r) (p₀ : Params)
    (hsize : (flattenParams p₀).length = n + 1) (record : ℝ → List ℝ → List OmOp) (group : HName)
    (hgroup : GroupPath group.path) (hrec : Records group.path (n + 1) record) (fs : Option H5File) (x₀ x y : Sim n smp)
    (hom : x₀.om = (omInit fs group false).2) (hpsi₀ : IsNetwork p₀ x₀.psi) (k m : ℕ) (hk : 0 < k)
    (hx : simRun (fixedStep heun dt (tdvpRhs env cfg r)) record k x₀ = .ok x)
    (hy : simRun (fixedStep heun dt (tdvpRhs env cfg r)) record (k + m) x₀ = .ok y)
    (psi : NqsState) (hpsi : IsNetwork p₀ psi) (rhs : smp × TdvpAttrs n) :
    ∃ moments, y.om.log.past = moments ++ x.om.log.past ∧ ∀ file ∈ y.om.log.now :: moments,
      ∃ z y', simResume file group ((k : ℤ) - 1) psi rhs = .ok z ∧ z.t = x.t ∧ z.psi = x.psi ∧
        simRun (fixedStep heun dt (tdvpRhs env cfg r)) record m z = .ok y' ∧ y'.t = y.t ∧ y'.psi = y.psi := by
  obtain ⟨k, rfl⟩ : ∃ j, k = j + 1 := ⟨k - 1, by omega⟩
  rw [simRun_add, hx] at hy
  obtain ⟨moments, h0, h⟩ := resume_general p₀ hsize _ (fixedStep_reproducible heun dt env cfg hc hc' ht r henv p₀) record
    group hgroup hrec fs x₀ x y hom hpsi₀ k m hx hy
  refine ⟨moments, h0, fun file hfile => ?_⟩
  obtain ⟨z, y', h1, h2, h3, h4, h5, h6, _⟩ := h file (.inl hfile) (((k + 1 : ℕ) : ℤ) - 1) (.inl (by push_cast; ring)) psi
    hpsi rhs
  exact ⟨z, y', h1, h2, h3, h4, h5, h6⟩

/-! ### A case -/

noncomputable def oneEnv : TdvpEnv 0 Unit := ⟨fun _ s _ => .ok (oneJoint, s)⟩

theorem one_stateless : Stateless oneEnv 0 := by
  obtain ⟨E, G, hi⟩ := one_input
  exact ⟨fun _ _ => oneJoint, fun _ _ s => ⟨s, rfl⟩, fun _ _ => ⟨hi.rank, hi.devices, hi.weights⟩⟩

theorem one_update (E : SObs (Fin 1)) (G : SObs (Fin 1)) (hi : TdvpInput oneJoint 0 E G) (at₀ at₁ : TdvpAttrs 0)
    (res : SolveRes 0) (hres : tdvpSolve oneCfg 0 (some (E, G)) at₀ = .ok (res, at₁)) : ∃ u, res.update = some u := by
  have heq := getTdvpEquation_eq oneCfg 0 oneJoint hi.devices hi.weights hi.rank E G hi.data at₀
  rw [oneQS, oneQF] at heq
  have hE : EighCorrect oneCfg := someEigh_correct _ rfl
  have hH : (Matrix.of fun _ _ => (1 : ℂ) : Matrix (Fin 1) (Fin 1) ℂ).IsHermitian := by
    ext i j
    simp [Matrix.conjTranspose_apply]
  have hev : (oneCfg.eigh (Matrix.of fun _ _ => (1 : ℂ))).1 (Fin.last 0) ≠ 0 := by
    have h := hE _ hH
    intro h0
    have h1 := congrFun (congrFun h.decomp 0) 0
    have h2 := congrFun (congrFun h.unitary 0) 0
    rw [Matrix.mul_diagonal] at h1
    change (oneCfg.eigh (Matrix.of fun _ _ => (1 : ℂ))).1 0 = 0 at h0
    rw [h0] at h1
    simp [Matrix.mul_apply] at h1 h2
    rw [h1] at h2
    simp at h2
  exact ⟨_, c45_formula oneCfg 0 oneJoint E G hi at₀ at₁ _ _ _ heq res hres _ _ rfl hev
    (by norm_num [oneCfg]) (fun _ => 0) (Or.inl rfl)⟩

noncomputable def oneParams : Params := .real [[1]]

theorem one_rhs (y : Fin 1 → ℝ) (t : ℝ) (k : ℕ) (psi : NqsState) (hpsi : IsNetwork oneParams psi)
    (rhs : Unit × TdvpAttrs 0) : ∃ u rhs₁, tdvpRhs oneEnv oneCfg 0 y t k (.ok (psi, rhs)) = (u, .ok (psi, rhs₁)) := by
  obtain ⟨sm, a⟩ := rhs
  obtain ⟨ops, hops, rfl⟩ := isNetwork_reached oneParams psi hpsi
  obtain ⟨st, hst, _⟩ := hpsi
  obtain ⟨q, hq, _⟩ := paramUnflatten_ok oneParams.isReal oneParams.sizes (List.ofFn y) (by
    simp [oneParams, numEntries, Params.isReal, Params.sizes])
  obtain ⟨E, G, hi⟩ := one_input
  obtain ⟨u, a₁, h⟩ := c44_returns oneEnv oneCfg (by norm_num [oneCfg]) (by norm_num [oneCfg]) (by norm_num [oneCfg]) 0
    (List.ofFn y) t (some k) sm sm a oneParams ops hops (by rw [hst]; simp) q hq oneJoint rfl hi.devices hi.weights hi.rank
  have h' := h
  rw [hst] at h'
  obtain ⟨p, jt, E', G', res, atS, p', hp, hm, hd, hs, _, _, hn, hz⟩ := tdvpCall_ok _ _ _ _ _ _ _ _ _ _ _ _ _ h'
  obtain ⟨rfl, _⟩ := Prod.mk.inj (Except.ok.inj hm)
  obtain ⟨v, hv⟩ := one_update E' G' ⟨hi.devices, hi.weights, hi.rank, hd⟩ a atS res hs
  have hu : u = some v := by
    by_cases hk : some k = some 0
    · obtain ⟨err, _, hf, _⟩ := hz hk
      rw [(hf rfl).1, hv]
    · rw [(hn hk).1, hv]
  refine ⟨v, (sm, a₁), ?_⟩
  unfold tdvpRhs
  dsimp only
  rw [h, hu]

theorem one_step (dt t : ℝ) (y : Fin 1 → ℝ) (psi : NqsState) (hpsi : IsNetwork oneParams psi)
    (rhs : Unit × TdvpAttrs 0) :
    ∃ v rhs₁, fixedStep true dt (tdvpRhs oneEnv oneCfg 0) t y (.ok (psi, rhs)) = ((v, dt), .ok (psi, rhs₁)) := by
  unfold fixedStep heunStep
  simp only [if_true]
  obtain ⟨u, rhs₁, h⟩ := one_rhs y t 0 psi hpsi rhs
  rw [h]
  dsimp only
  obtain ⟨u', rhs₂, h'⟩ := one_rhs (y + dt • u) (t + dt) 1 psi hpsi rhs₁
  rw [h']
  exact ⟨_, _, rfl⟩

/-- The energy is recorded in every pass. -/
noncomputable def oneRecord (t : ℝ) (w : List ℝ) : List OmOp :=
  [.writeObservables t [(["energy"], [(["mean"], some ⟨[], fun _ => w.getD 0 0⟩)])]]

theorem one_records : Records [] 1 oneRecord where
  natural := by
    intro t w op hop
    rw [oneRecord, List.mem_singleton] at hop
    subst hop
    intro k hk
    rw [List.mem_singleton] at hk
    subst hk
    refine ⟨⟨"energy", ⟨rfl, by decide⟩, by decide⟩, ?_⟩
    intro m hm
    rw [List.mem_singleton] at hm
    subst hm
    exact ⟨⟨"mean", rfl, by decide⟩, rfl⟩
  same_group := by
    intro t w op hop g h
    rw [oneRecord, List.mem_singleton] at hop
    subst hop
    cases h
  no_checkpoint := by
    intro t w op hop t' w' h
    rw [oneRecord, List.mem_singleton] at hop
    subst hop
    cases h
  shapes := by
    intro t w t' w' _ _ a ha b hb _
    have key : ∀ t w, ∀ c ∈ intended [] (oneRecord t w), c.2.shape = [] := by
      intro t w c hc
      change c ∈ [(_, scalarArr t), (_, ⟨[], fun _ => w.getD 0 0⟩)] at hc
      rcases List.mem_cons.mp hc with rfl | hc
      · rfl
      · rw [List.mem_singleton] at hc
        subst hc
        rfl
    have key' : ∀ c ∈ intended [] (oneRecord t w) ++ intended [] (oneRecord t' w'), c.2.shape = [] := by
      intro c hc
      rcases List.mem_append.mp hc with h | h
      · exact key _ _ c h
      · exact key _ _ c h
    rw [key' a ha, key' b hb]

theorem one_run (dt : ℝ) (shape : List String → List ℕ)
    (hshape : ∀ t w, w.length = 1 → ∀ x ∈ intended [] (passOps oneRecord t w), shape x.1 = x.2.shape) :
    ∀ (k : ℕ) (x : Sim 0 Unit), IsNetwork oneParams x.psi → OmReady shape [] x.om →
      ∃ y, simRun (fixedStep true dt (tdvpRhs oneEnv oneCfg 0)) oneRecord k x = .ok y
  | 0, x, _, _ => ⟨x, rfl⟩
  | k + 1, x, hpsi, hom => by
    obtain ⟨p, hp, hr, hsz⟩ := (isNetwork_iff oneParams _).mp hpsi
    have hget : getParameters.call (netState oneParams p) = (.ok (some (flattenParams p)), netState oneParams p) := rfl
    obtain ⟨v, rhs₁, hs⟩ := one_step dt x.t (fun i => (flattenParams p).getD i 0) _ hpsi x.rhs
    obtain ⟨q, _, q1, q2, q3⟩ := paramUnflatten_ok oneParams.isReal oneParams.sizes (List.ofFn v) (by
      simp [oneParams, numEntries, Params.isReal, Params.sizes])
    have hcall : (do setParameters (.vec (List.ofFn v)); getParameters : PsiM _).call (netState oneParams p)
        = (.ok (some (List.ofFn v)), netState oneParams q) := by
      rw [call_bind, netState_set oneParams p q _ q1 q2 q3]
      change (Except.ok (some (flattenParams q)), netState oneParams q) = _
      rw [q3]
    obtain ⟨om', e1, r1, _⟩ := pass_writes (by intro c hc; cases hc) x.om hom (passOps oneRecord (x.t + dt) (List.ofFn v))
      (passOps_natural one_records _ _) (passOps_group one_records _ _) (hshape _ _ (by simp))
    obtain ⟨y, hy⟩ := one_run dt shape hshape k ⟨x.t + dt, netState oneParams q, rhs₁, om'⟩
      ((isNetwork_iff _ _).mpr ⟨q, rfl, q1, q2⟩) r1
    refine ⟨y, ?_⟩
    change (simPass _ oneRecord x >>= fun x' => simRun _ oneRecord k x') = _
    have : simPass (fixedStep true dt (tdvpRhs oneEnv oneCfg 0)) oneRecord x
        = .ok ⟨x.t + dt, netState oneParams q, rhs₁, om'⟩ := by
      unfold simPass
      rw [hp] at hs ⊢
      rw [hget]
      dsimp only
      rw [hs]
      dsimp only
      rw [hcall]
      dsimp only
      unfold passOps at e1
      rw [e1]
      rfl
    rw [this]
    exact hy

/-- Case: the hypotheses of `c99_resume_partial` and `c99_crash_partial` are met, for any numbers of passes; a crash is
possible at several moments. -/
example (k m : ℕ) : ∃ x₀ x y : Sim 0 Unit, x₀.om = (omInit none ["", ""] false).2 ∧ IsNetwork oneParams x₀.psi ∧
    simRun (fixedStep true (1 / 10) (tdvpRhs oneEnv oneCfg 0)) oneRecord k x₀ = .ok x ∧
    simRun (fixedStep true (1 / 10) (tdvpRhs oneEnv oneCfg 0)) oneRecord (k + m) x₀ = .ok y ∧
    Stateless oneEnv 0 ∧ Records (HName.path ["", ""]) 1 oneRecord ∧ (flattenParams oneParams).length = 1 := by
  obtain ⟨shape, hshape⟩ := passOps_shapes one_records
  have h0 : OmReady shape [] (omInit none ["", ""] false).2 := by
    obtain ⟨cur, f, past, e, hc, hf, hg, _⟩ := init_general shape none ["", ""] false (declared_new shape)
      (by intro c hc; cases hc)
    have hal := init_always shape none ["", ""] false (declared_new shape) (by intro c hc; cases hc)
    rw [e] at hal ⊢
    exact ⟨rfl, hc, hal, by rw [show cur.path = [] from hc] at hg; exact hg⟩
  let x₀ : Sim 0 Unit := ⟨0, netState oneParams oneParams, ((), {}), (omInit none ["", ""] false).2⟩
  have hpsi : IsNetwork oneParams x₀.psi := (isNetwork_iff _ _).mpr ⟨oneParams, rfl, rfl, rfl⟩
  obtain ⟨x, hx⟩ := one_run (1 / 10) shape hshape k x₀ hpsi h0
  obtain ⟨y, hy⟩ := one_run (1 / 10) shape hshape (k + m) x₀ hpsi h0
  exact ⟨x₀, x, y, rfl, hpsi, hx, hy, one_stateless, one_records, by simp [oneParams, flattenParams]⟩

/-! ### Where the claim fails -/

/-- **C99** is violated for a crash in the middle of `write_network_checkpoint` and the default `idx=-1`: the script is
resumed at the new time with the old parameters. Here the parameter grows by one per unit of time: the simulation has the
parameter 3 at time 2, the resumed one starts at time 2 with the parameter 2. -/
theorem c99_crash_violated : ∃ (y : Sim 0 Unit) (crashed : H5File) (z : Sim 0 Unit),
    simRun (fixedStep false 1 fun _ _ _ s => (fun _ => 1, s)) (fun _ _ => []) 2
      ⟨0, netState oneParams oneParams, ((), {}), (omInit none ["", ""] false).2⟩ = .ok y ∧
    y.t = 2 ∧ getParameters.call y.psi = (.ok (some [3]), y.psi) ∧ crashed ∈ y.om.log.past ∧
    simResume crashed ["", ""] (-1) (netState oneParams oneParams) ((), {}) = .ok z ∧
    z.t = 2 ∧ getParameters.call z.psi = (.ok (some [2]), z.psi) := by
  have hv : ∀ (c : ℝ) (om om' : OmState) (t : ℝ), omAll om [.writeCheckpoint (t + 1) (some (vecArr [c + 1]))] = .ok om' →
      simPass (fixedStep false 1 fun _ _ _ s => (fun _ => 1, s)) (fun _ _ => [])
        (⟨t, netState oneParams (.real [[c]]), ((), {}), om⟩ : Sim 0 Unit)
        = .ok ⟨t + 1, netState oneParams (.real [[c + 1]]), ((), {}), om'⟩ := by
    intro c om om' t h
    have hcall : (do setParameters (.vec [c + 1]); getParameters : PsiM _).call (netState oneParams (.real [[c]]))
        = (.ok (some [c + 1]), netState oneParams (.real [[c + 1]])) := by
      rw [call_bind, netState_set oneParams _ (.real [[c + 1]]) _ rfl rfl (by simp [flattenParams])]
      rfl
    have hst : fixedStep false 1 (fun _ _ _ s => (fun _ => 1, s)) t (fun i => [c].getD i 0)
        (.ok (netState oneParams (.real [[c]]), ((), {}))) = (((fun _ => c + 1, 1), .ok (netState oneParams (.real [[c]]), ((), {}))) :
          ((Fin 1 → ℝ) × ℝ) × SimRhs 0 Unit) := by
      unfold fixedStep eulerStep
      simp
      funext i
      have : i = 0 := Fin.fin_one_eq_zero i
      subst this
      simp
    have hget : getParameters.call (netState oneParams (.real [[c]])) = (.ok (some [c]), netState oneParams (.real [[c]])) := by
      unfold netState
      rw [call_getParameters]
      simp [flattenParams]
    unfold simPass
    dsimp only
    rw [hget]
    dsimp only
    rw [hst]
    dsimp only
    rw [show (List.ofFn fun _ : Fin 1 => c + 1) = [c + 1] by simp, hcall]
    dsimp only
    rw [List.nil_append, h]
    rfl
  obtain ⟨om₁, h₁⟩ : ∃ om₁, om₁ = (omCall (omInit none ["", ""] false).2
      (.writeCheckpoint (0 + 1) (some (vecArr [1 + 1])))).2 := ⟨_, rfl⟩
  obtain ⟨om₂, h₂⟩ : ∃ om₂, om₂ = (omCall om₁ (.writeCheckpoint (0 + 1 + 1) (some (vecArr [1 + 1 + 1])))).2 := ⟨_, rfl⟩
  have e₁ := hv 1 (omInit none ["", ""] false).2 om₁ 0 (by rw [h₁]; rfl)
  have e₂ := hv (1 + 1) om₁ om₂ (0 + 1) (by rw [h₂, h₁]; rfl)
  have hrun : simRun (fixedStep false 1 fun _ _ _ s => (fun _ => 1, s)) (fun _ _ => []) 2
      (⟨0, netState oneParams oneParams, ((), {}), (omInit none ["", ""] false).2⟩ : Sim 0 Unit)
      = .ok ⟨0 + 1 + 1, netState oneParams (.real [[1 + 1 + 1]]), ((), {}), om₂⟩ := by
    unfold simRun
    change (simPass _ _ ⟨0, netState oneParams (.real [[1]]), ((), {}), (omInit none ["", ""] false).2⟩ >>= _) = _
    rw [e₁]
    change (simPass _ _ _ >>= _) = _
    rw [e₂]
    rfl
  have hlen : 1 < om₂.log.past.length := by
    rw [h₂, h₁]
    change 1 < 11
    norm_num
  have hget : ∀ c : ℝ, getParameters.call (netState oneParams (.real [[c]]))
      = (.ok (some [c]), netState oneParams (.real [[c]])) := by
    intro c
    unfold netState
    rw [call_getParameters]
    simp [flattenParams]
  have hck : ∃ a, omGetCheckpoint om₂.log.past[1] ["", ""] (-1) (-1) = .ok (0 + 1 + 1, ⟨[1], a⟩) ∧ a [0] = 1 + 1 := by
    have hT : ∃ a b, om₂.log.past[1] (HName.path ["", ""] ++ ["network_checkpoints", "times"])
        = some (.dset ⟨[], [], [a, b]⟩) ∧ b [] = 0 + 1 + 1 := by
      subst h₂ h₁
      exact ⟨_, _, rfl, rfl⟩
    have hC : ∃ a, om₂.log.past[1] (HName.path ["", ""] ++ ["network_checkpoints", "checkpoints"])
        = some (.dset ⟨[1], [1], [a]⟩) ∧ a [0] = 1 + 1 := by
      subst h₂ h₁
      exact ⟨_, rfl, rfl⟩
    obtain ⟨a, b, hT, hb⟩ := hT
    obtain ⟨c, hC, hc⟩ := hC
    rw [getCheckpoint_idx _ _ _ _ hT hC (-1) (by norm_num), ← hb]
    exact ⟨c, rfl, hc⟩
  obtain ⟨a, hck, ha⟩ := hck
  refine ⟨_, om₂.log.past[1], ⟨0 + 1 + 1, netState oneParams (.real [[1 + 1]]), ((), {}), ⟨⟨["", ""], true⟩, ⟨om₂.log.past[1], []⟩⟩⟩,
    hrun, by norm_num, ?_, List.getElem_mem _, ?_, by norm_num, ?_⟩
  · rw [hget]; norm_num
  · unfold simResume
    have hi : omInit (some om₂.log.past[1]) ["", ""] true = (.ok (), ⟨⟨["", ""], true⟩, ⟨om₂.log.past[1], []⟩⟩) := by
      subst h₂ h₁
      rfl
    rw [hi]
    dsimp only
    rw [hck]
    have hset := netState_set oneParams oneParams (.real [[1 + 1]]) [1 + 1] rfl rfl (by simp [flattenParams])
    have harr : arrVec ⟨[1], a⟩ = [1 + 1] := by
      change [a [0]] = _
      rw [ha]
    change (match (setParameters (.vec (arrVec ⟨[1], a⟩))).call (netState oneParams oneParams) with
      | (.error e, _) => Except.error e
      | (.ok _, psi) => Except.ok (⟨0 + 1 + 1, psi, ((), {}), ⟨⟨["", ""], true⟩, ⟨om₂.log.past[1], []⟩⟩⟩ : Sim 0 Unit)) = _
    rw [harr, hset]
  · rw [hget]; norm_num

/-- A step of `AdaptiveHeun` for `dy/dt = 1`: the error vanishes, the time step is doubled. -/
theorem ahStep_one (d t y : ℝ) (hd : d * 2 ≤ 10) : ∃ w, ahStep true ⟨d, 1, 10⟩ t (refRhs fun _ _ _ s => (1, s)) 0
    (fun x : ℝ => |x|) ([y], ()) = .ok ((y + d, d, some ⟨d * 2, 1, 10⟩), w) := by
  unfold ahStep newArr
  dsimp only
  rw [whileLoop_step _ _ _ (by simp only [Num.below, decide_eq_true_eq]; norm_num)]
  obtain ⟨h', e, hk⟩ := ahBody_eq true ⟨d, 1, 10⟩ (refRhs fun _ _ _ s => (1, s)) (fun (_ : ℝ) _ _ (s : Unit) => (1, s))
    (refRhs_computes true _) (fun x => |x|) t 1 (.fin 0.5) d none [y, y] () (by simp)
  have hdev : heunDev (fun (_ : ℝ) _ _ (s : Unit) => ((1 : ℝ), s)) (fun x => |x|) t d y () = 0 := by
    simp only [heunDev, heunPair, smul_eq_mul]
    rw [abs_eq_zero]
    ring
  have hp : (heunPair (fun (_ : ℝ) _ _ (s : Unit) => ((1 : ℝ), s)) t d y ()).1.2 = d := by
    simp only [heunPair, smul_eq_mul]
    ring
  have hg : [y, y].getD 1 0 = y := rfl
  rw [hg, hdev, hp] at e
  have hq : Num.quot 1 0 = .inf := by simp [Num.quot]
  dsimp only at e
  rw [hq] at e
  have e' : ahBody true ⟨d, 1, 10⟩ (refRhs fun _ _ _ s => (1, s)) (fun x : ℝ => |x|) t [y].length
      ⟨.fin 0.5, some d, none, ([y] ++ [[y].getD 0 0], ())⟩ = _ := e
  rw [e', whileLoop_zero (fun s : AHState ℝ Unit => s.fe.below 1) _ _ rfl]
  refine ⟨(h', ()), ?_⟩
  have h1 : h'.getD 1 0 = y := hk.get' 1 (by simp)
  dsimp only [ahFactor, Option.map]
  change Except.ok ((h'.getD 1 0 + d, d, _), _) = _
  rw [h1]
  change Except.ok ((y + d, d, some (⟨min (d * 2) 10, 1, 10⟩ : AHeun)), (h', ())) = _
  rw [min_eq_left hd]

/-- **C99** is violated for `AdaptiveHeun`, whose time step is not in the file. Here `dy/dt = 1`: two steps lead to time
and value 3/4. If the script is stopped after the first one and started again, they lead to 1/2. -/
theorem c99_adaptive_violated : ∃ (obj obj' o₁ o₂ : AHeun) (w w₁ w₂ : List ℝ × Unit),
    ahStep true obj 0 (refRhs fun _ _ _ s => (1, s)) 0 (fun x => |x|) ([0], ()) = .ok ((1 / 4, 1 / 4, some obj'), w) ∧
    ahStep true obj' (1 / 4) (refRhs fun _ _ _ s => (1, s)) 0 (fun x => |x|) ([1 / 4], ())
      = .ok ((3 / 4, 1 / 2, some o₁), w₁) ∧
    ahStep true obj (1 / 4) (refRhs fun _ _ _ s => (1, s)) 0 (fun x => |x|) ([1 / 4], ())
      = .ok ((1 / 2, 1 / 4, some o₂), w₂) := by
  obtain ⟨w, h⟩ := ahStep_one (1 / 4) 0 0 (by norm_num)
  obtain ⟨w₁, h₁⟩ := ahStep_one (1 / 4 * 2) (1 / 4) (1 / 4) (by norm_num)
  obtain ⟨w₂, h₂⟩ := ahStep_one (1 / 4) (1 / 4) (1 / 4) (by norm_num)
  refine ⟨⟨1 / 4, 1, 10⟩, ⟨1 / 4 * 2, 1, 10⟩, ⟨1 / 4 * 2 * 2, 1, 10⟩, ⟨1 / 4 * 2, 1, 10⟩, w, w₁, w₂, ?_, ?_, ?_⟩
  · rw [h]; norm_num
  · rw [h₁]; norm_num
  · rw [h₂]; norm_num

end JVMC
