import Verif.Lemmas.SpmdCode

/-!
# Lemmas for C102: TDVP and MinSR on the ranks
-/

namespace JVMC

open Spec

variable {N n : ℕ} [NeZero N]

omit [NeZero N] in
theorem atRank_ofFn {A : Type} (a : Fin N → A) (r : Fin N) : atRank r.val (List.ofFn a) = .ok (a r) := by
  unfold atRank
  have : (List.ofFn a)[r.val]? = some (a r) := by
    rw [List.getElem?_eq_getElem (by simp)]
    simp
  rw [this]

omit [NeZero N] in
theorem lockstep_return {α : Type} (f v : Fin N → α) (h : ∀ r, f r = v r) :
    Lockstep (fun r => (pure (f r) : Prog α)) v := by
  rw [← funext h]
  exact lockstep_pure _

/-- The data of all ranks, and that of one rank. -/
abbrev RankData (N n : ℕ) := Option ((Fin N → RObs (Fin 1)) × (Fin N → RObs (Fin (n + 1))))

/-- All ranks. -/
def RankData.world (d : RankData N n) : TdvpData n := d.map fun x => (joinObs x.1, joinObs x.2)

/-- One rank. -/
def RankData.rank (d : RankData N n) (r : Fin N) : TdvpDataR n := d.map fun x => (x.1 r, x.2 r)

theorem lockstep_nan {A : Type} [AddCommMonoid A] [MpiBuf A] [LawfulBuf A] :
    Lockstep (fun _ : Fin N => allreduceNan (none : Option A)) fun _ => none :=
  lockstep_allreduceNan _ none (fun a h => by cases h 0) fun _ => rfl

theorem getTdvpEquation_ranks (cfg : TdvpCfg n) (d : RankData N n) (at₀ : Fin N → TdvpAttrs n)
    (res : Fin N → Flt (Matrix (Fin (n + 1)) (Fin (n + 1)) ℂ × (Fin (n + 1) → ℂ)) × TdvpAttrs n)
    (h : ∀ r : Fin N, getTdvpEquation cfg r.val d.world (at₀ r) = .ok (res r)) :
    Lockstep (fun r => getTdvpEquationR cfg (d.rank r) (at₀ r)) res ∧
      ∃ eq, (eq = none ↔ d = none) ∧ ∀ r, (res r).1 = eq := by
  cases d with
  | none =>
    have hres : res = fun r => (none, { at₀ r with eqn := some none }) := by
      funext r
      exact (Except.ok.inj (h r)).symm
    rw [hres]
    exact ⟨lockstep_seq lockstep_nan (lockstep_seq lockstep_nan (lockstep_seq lockstep_nan
      (lockstep_pure _))), none, by simp, fun _ => rfl⟩
  | some x =>
    obtain ⟨E, G⟩ := x
    have h' : ∀ r : Fin N, (do
        let mean ← atRank r.val (joinObs E).mean
        let var ← atRank r.val (← (joinObs E).var)
        let force ← atRank r.val (← (joinObs G).covar (joinObs E))
        let F0 : Fin (n + 1) → ℂ := fun i => (-cfg.rhsPrefactor) * force i 0
        let F := fun i => cfg.q (F0 i)
        let S0 ← atRank r.val (← (joinObs G).covar (joinObs G))
        let S : Matrix (Fin (n + 1)) (Fin (n + 1)) ℂ := Matrix.of fun i j => cfg.q (S0 i j)
        let S' := if cfg.diagonalShift > 1e-10 then
            S + Matrix.diagonal (fun i => (cfg.diagonalShift : ℂ) * S i i) else S
        return (some (S', F), { at₀ r with
          eqn := some (some ⟨mean 0, var 0, F0, Matrix.of S0⟩) }) : Except PyErr _) = .ok (res r) := h
    have hmean : ∀ r : Fin N, atRank r.val (joinObs E).mean = .ok (E r).mean :=
      fun r => atRank_ofFn _ r
    simp only [hmean] at h'
    cases hv : (joinObs E).var with
    | error e =>
      have := h' 0
      rw [hv] at this
      cases this
    | ok vl =>
      obtain ⟨v, rfl, lv⟩ := var_ranks hv
      cases hf : (joinObs G).covar (joinObs E) with
      | error e =>
        have := h' 0
        rw [hv, hf] at this
        change Except.bind (atRank _ _) _ = _ at this
        rw [atRank_ofFn] at this
        cases this
      | ok fl =>
        obtain ⟨f, rfl, lf⟩ := covar_ranks hf
        cases hs : (joinObs G).covar (joinObs G) with
        | error e =>
          have := h' 0
          rw [hv, hf, hs] at this
          change Except.bind (atRank _ _) _ = _ at this
          rw [atRank_ofFn] at this
          change Except.bind (atRank _ _) _ = _ at this
          rw [atRank_ofFn] at this
          cases this
        | ok sl =>
          obtain ⟨s, rfl, ls⟩ := covar_ranks hs
          have hres : ∀ r, (some (if cfg.diagonalShift > 1e-10 then
                (Matrix.of fun i j => cfg.q (s i j)) + Matrix.diagonal fun i =>
                  (cfg.diagonalShift : ℂ) * Matrix.of (fun i j => cfg.q (s i j)) i i
                else Matrix.of fun i j => cfg.q (s i j), fun i => cfg.q (-cfg.rhsPrefactor * f i 0)),
              ({ at₀ r with eqn := some (some ⟨(E r).mean 0, v 0, fun i => -cfg.rhsPrefactor * f i 0,
                Matrix.of s⟩) } : TdvpAttrs n)) = res r := by
            intro r
            have := h' r
            rw [hv, hf, hs] at this
            change Except.bind (atRank _ _) _ = _ at this
            rw [atRank_ofFn] at this
            change Except.bind (atRank _ _) _ = _ at this
            rw [atRank_ofFn] at this
            change Except.bind (atRank _ _) _ = _ at this
            rw [atRank_ofFn] at this
            exact Except.ok.inj this
          refine ⟨lockstep_seq lv (lockstep_seq lf (lockstep_seq ls (lockstep_return _ res hres))),
            (res 0).1, by rw [← hres 0]; simp, fun r => by rw [← hres r, ← hres 0]⟩

theorem tdvpSnr_ranks (cfg : TdvpCfg n) (E : Fin N → RObs (Fin 1)) (G : Fin N → RObs (Fin (n + 1)))
    (sp : TdvpSpectrum n) (res : Fin N → Fin (n + 1) → Num)
    (h : ∀ r : Fin N, tdvpSnr cfg r.val (joinObs E) (joinObs G) sp = .ok (res r)) :
    Lockstep (fun r => tdvpSnrR cfg (E r) (G r) sp) res ∧ ∃ x, ∀ r, res r = x := by
  unfold tdvpSnr at h
  cases hc : (joinObs G).covarData (joinObs E) with
  | error e =>
    have := h 0
    rw [hc] at this
    cases this
  | ok O =>
    obtain ⟨o, rfl, lo⟩ := covarData_ranks hc
    simp only [hc] at h
    cases o with
    | none =>
      have hres : ∀ r, (fun _ => Num.nan) = res r := fun r => Except.ok.inj (h r)
      exact ⟨lockstep_seq lo (lockstep_seq lockstep_nan (lockstep_seq lockstep_nan
        (lockstep_return _ res hres))), _, fun r => (hres r).symm⟩
    | some cd =>
      cases ht : (joinObs cd).transformLinear (fun k i => (starRingEnd ℂ) (sp.V i k))
          (fun z => cfg.q ((-cfg.rhsPrefactor) * z)) with
      | error e =>
        have := h 0
        change Except.bind ((joinObs cd).transformLinear (fun k i => (starRingEnd ℂ) (sp.V i k))
          (fun z => cfg.q ((-cfg.rhsPrefactor) * z))) _ = _ at this
        rw [ht] at this
        cases this
      | ok O' =>
        obtain ⟨o', rfl, lo'⟩ := transformLinear_ranks ht
        have h' := h
        change ∀ r : Fin N, Except.bind ((joinObs cd).transformLinear
          (fun k i => (starRingEnd ℂ) (sp.V i k)) (fun z => cfg.q ((-cfg.rhsPrefactor) * z))) _ = _ at h'
        rw [ht] at h'
        cases o' with
        | none =>
          have hres : ∀ r, (fun _ => Num.nan) = res r := fun r => Except.ok.inj (h' r)
          exact ⟨lockstep_seq lo (lockstep_seq lo' (lockstep_seq lockstep_nan
            (lockstep_return _ res hres))), _, fun r => (hres r).symm⟩
        | some EO =>
          have h2 : ∀ r : Fin N, Except.bind (joinObs EO).var (fun l => Except.bind (atRank r.val l)
            fun rhoVar => Except.ok fun k =>
              (Num.quot (cfg.numSamples * Complex.normSq (sp.VtF k)) (rhoVar (k, 0))).sqrt) =
              .ok (res r) := h'
          cases hv : (joinObs EO).var with
          | error e =>
            have := h2 0
            rw [hv] at this
            cases this
          | ok vl =>
            obtain ⟨v, rfl, lv⟩ := var_ranks hv
            have hres : ∀ r, (fun k => (Num.quot (cfg.numSamples * Complex.normSq (sp.VtF k))
                (v (k, 0))).sqrt) = res r := by
              intro r
              have := h2 r
              rw [hv] at this
              change Except.bind (atRank _ _) _ = _ at this
              rw [atRank_ofFn] at this
              exact Except.ok.inj this
            exact ⟨lockstep_seq lo (lockstep_seq lo' (lockstep_seq lv (lockstep_return _ res hres))), _,
              fun r => (hres r).symm⟩

/-- The attributes after `solve`. -/
abbrev solvedAttrs (a : TdvpAttrs n) (S : Matrix (Fin (n + 1)) (Fin (n + 1)) ℂ) (sp : TdvpSpectrum n)
    (snr : Fin (n + 1) → Num) : TdvpAttrs n :=
  { a with S := some (some S), spectrum := some (some sp), snr := some snr }

theorem tdvpSolve_ranks (cfg : TdvpCfg n) (d : RankData N n) (at₀ : Fin N → TdvpAttrs n)
    (res : Fin N → SolveRes n × TdvpAttrs n)
    (h : ∀ r : Fin N, tdvpSolve cfg r.val d.world (at₀ r) = .ok (res r)) :
    Lockstep (fun r => tdvpSolveR cfg (d.rank r) (at₀ r)) res ∧ ∃ x, ∀ r, (res r).1 = x := by
  have heq : ∀ r : Fin N, ∃ e, getTdvpEquation cfg r.val d.world (at₀ r) = .ok e := by
    intro r
    have := h r
    unfold tdvpSolve at this
    cases he : getTdvpEquation cfg r.val d.world (at₀ r) with
    | error e => rw [he] at this; cases this
    | ok e => exact ⟨e, rfl⟩
  choose e he using heq
  obtain ⟨le, eq, hnone, hcommon⟩ := getTdvpEquation_ranks cfg d at₀ e he
  cases d with
  | none =>
    obtain rfl : eq = none := hnone.mpr rfl
    have h' : ∀ r, (if 1 > cfg.pinvTol ∧ 1e-2 > cfg.pinvCutoff then
        Except.ok ((⟨none, none, max (1e-2 * (4 / 5)) cfg.pinvCutoff⟩ : SolveRes n),
          ({ (e r).2 with S := some none, spectrum := some none, snr := some fun _ => .nan } :
            TdvpAttrs n))
        else Except.error PyErr.unboundLocalError) = .ok (res r) := by
      intro r
      have := h r
      unfold tdvpSolve at this
      rw [he r] at this
      have h1 := hcommon r
      rcases her : e r with ⟨e1, e2⟩
      rw [her] at h1 this
      obtain rfl : e1 = none := h1
      exact this
    by_cases hcond : 1 > cfg.pinvTol ∧ 1e-2 > cfg.pinvCutoff
    · have hres : ∀ r, ((⟨none, none, max (1e-2 * (4 / 5)) cfg.pinvCutoff⟩ : SolveRes n),
          ({ (e r).2 with S := some none, spectrum := some none, snr := some fun _ => .nan } :
            TdvpAttrs n)) = res r := by
        intro r
        have := h' r
        rw [if_pos hcond] at this
        exact Except.ok.inj this
      refine ⟨lockstep_seq le ?_, _, fun r => by rw [← hres r]⟩
      have hprog : (fun r : Fin N => (do
          let _ ← allreduceNan (none : Option (Fin (n + 1) × Fin 1 → ℂ))
          let _ ← allreduceNan (none : Option (Fin (n + 1) × Fin 1 → ℂ))
          let _ ← allreduceNan (none : Option (Fin (n + 1) × Fin 1 → ℝ))
          let at₂ : TdvpAttrs n :=
            { (e r).2 with S := some none, spectrum := some none, snr := some fun _ => .nan }
          if 1 > cfg.pinvTol ∧ 1e-2 > cfg.pinvCutoff then
            return ((⟨none, none, max (1e-2 * (4 / 5)) cfg.pinvCutoff⟩ : SolveRes n), at₂)
          else Prog.raise .unboundLocalError : Prog (SolveRes n × TdvpAttrs n))) = fun r => (do
          let _ ← allreduceNan (none : Option (Fin (n + 1) × Fin 1 → ℂ))
          let _ ← allreduceNan (none : Option (Fin (n + 1) × Fin 1 → ℂ))
          let _ ← allreduceNan (none : Option (Fin (n + 1) × Fin 1 → ℝ))
          return res r) := by
        funext r
        simp only [if_pos hcond, hres r]
      have hmatch : (fun r : Fin N => (do
          let _ ← allreduceNan (none : Option (Fin (n + 1) × Fin 1 → ℂ))
          let _ ← allreduceNan (none : Option (Fin (n + 1) × Fin 1 → ℂ))
          let _ ← allreduceNan (none : Option (Fin (n + 1) × Fin 1 → ℝ))
          let at₂ : TdvpAttrs n :=
            { (e r).2 with S := some none, spectrum := some none, snr := some fun _ => .nan }
          if 1 > cfg.pinvTol ∧ 1e-2 > cfg.pinvCutoff then
            return ((⟨none, none, max (1e-2 * (4 / 5)) cfg.pinvCutoff⟩ : SolveRes n), at₂)
          else Prog.raise .unboundLocalError : Prog (SolveRes n × TdvpAttrs n))) = _ := hprog
      have hgoal : Lockstep (fun r : Fin N => (do
          let _ ← allreduceNan (none : Option (Fin (n + 1) × Fin 1 → ℂ))
          let _ ← allreduceNan (none : Option (Fin (n + 1) × Fin 1 → ℂ))
          let _ ← allreduceNan (none : Option (Fin (n + 1) × Fin 1 → ℝ))
          return res r : Prog (SolveRes n × TdvpAttrs n))) res :=
        lockstep_seq lockstep_nan (lockstep_seq lockstep_nan (lockstep_seq lockstep_nan
          (lockstep_pure _)))
      rw [← hprog] at hgoal
      convert hgoal using 2 with r
      have h1 := hcommon r
      rcases her : e r with ⟨e1, e2⟩
      rw [her] at h1
      obtain rfl : e1 = none := h1
      rfl
    · have := h' 0
      rw [if_neg hcond] at this
      cases this
  | some x =>
    obtain ⟨E, G⟩ := x
    obtain ⟨SF, rfl⟩ := Option.ne_none_iff_exists'.mp (fun hc => by simpa using hnone.mp hc)
    obtain ⟨S, F⟩ := SF
    have h' : ∀ r : Fin N, Except.bind (tdvpSnr cfg r.val (joinObs E) (joinObs G)
        (tdvpEigenbasis cfg S F)) (fun snr =>
          match pinvLoop cfg (tdvpEigenbasis cfg S F) snr F with
          | none => .error .noReturn
          | some s => Except.bind (tdvpUpdate cfg (tdvpEigenbasis cfg S F) s) fun x =>
            .ok (x, (solvedAttrs (e r).2 S (tdvpEigenbasis cfg S F) snr))) = .ok (res r) := by
      intro r
      have := h r
      unfold tdvpSolve at this
      rw [he r] at this
      have h1 := hcommon r
      rcases her : e r with ⟨e1, e2⟩
      rw [her] at h1 this
      obtain rfl : e1 = some (S, F) := h1
      exact this
    have hsnr : ∀ r : Fin N, ∃ s, tdvpSnr cfg r.val (joinObs E) (joinObs G)
        (tdvpEigenbasis cfg S F) = .ok s := by
      intro r
      cases hs : tdvpSnr cfg r.val (joinObs E) (joinObs G) (tdvpEigenbasis cfg S F) with
      | error e => have := h' r; rw [hs] at this; cases this
      | ok s => exact ⟨s, rfl⟩
    choose s hs using hsnr
    obtain ⟨lsn, snr, hsn⟩ := tdvpSnr_ranks cfg E G _ s hs
    have h2 : ∀ r : Fin N, (match pinvLoop cfg (tdvpEigenbasis cfg S F) snr F with
          | none => Except.error PyErr.noReturn
          | some s => Except.bind (tdvpUpdate cfg (tdvpEigenbasis cfg S F) s) fun x =>
            .ok (x, (solvedAttrs (e r).2 S (tdvpEigenbasis cfg S F) snr))) = .ok (res r) := by
      intro r
      have := h' r
      rw [hs r, hsn r] at this
      exact this
    cases hl : pinvLoop cfg (tdvpEigenbasis cfg S F) snr F with
    | none =>
      have := h2 0
      rw [hl] at this
      cases this
    | some ps =>
      rw [hl] at h2
      dsimp only at h2
      cases hu : tdvpUpdate cfg (tdvpEigenbasis cfg S F) ps with
      | error e =>
        have := h2 0
        rw [hu] at this
        cases this
      | ok u =>
        rw [hu] at h2
        have hres : ∀ r, (u, (solvedAttrs (e r).2 S (tdvpEigenbasis cfg S F) snr)) = res r :=
          fun r => Except.ok.inj (h2 r)
        refine ⟨lockstep_seq le ?_, u, fun r => by rw [← hres r]⟩
        have hgoal : Lockstep (fun r : Fin N => (do
            let snr ← tdvpSnrR cfg (E r) (G r) (tdvpEigenbasis cfg S F)
            let at₂ := solvedAttrs (e r).2 S (tdvpEigenbasis cfg S F) snr
            match pinvLoop cfg (tdvpEigenbasis cfg S F) snr F with
            | none => Prog.raise .noReturn
            | some s =>
              let res ← Prog.lift (tdvpUpdate cfg (tdvpEigenbasis cfg S F) s)
              return (res, at₂) : Prog (SolveRes n × TdvpAttrs n))) res := by
          refine lockstep_seq lsn ?_
          simp only [hsn, hl, hu, Prog.lift]
          exact lockstep_return _ _ hres
        convert hgoal using 2 with r
        have h1 := hcommon r
        rcases her : e r with ⟨e1, e2⟩
        rw [her] at h1
        obtain rfl : e1 = some (S, F) := h1
        rfl

end JVMC
