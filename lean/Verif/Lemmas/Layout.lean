import Verif.Props.MinSR
import Verif.Spec.Layout

/-!
# Lemmas for C103: statistics of permuted samples, pseudo-inverses of permuted matrices
-/

namespace JVMC

open Spec Matrix

variable {n : ℕ}

theorem wMean_perm {A : Type} [AddCommMonoid A] [SMul ℝ A] {l l' : List (ℝ × A)} (h : l.Perm l') :
    wMean l = wMean l' := by
  unfold wMean
  exact (h.map _).sum_eq

theorem wVar_perm {ι : Type} {l l' : List (ℝ × (ι → ℂ))} (h : l.Perm l') : wVar l = wVar l' := by
  funext k
  unfold wVar
  rw [wMean_perm h]
  exact (h.map _).sum_eq

theorem wCross_perm {ι κ : Type} {l l' : List (ℝ × (ι → ℂ) × (κ → ℂ))} (h : l.Perm l') :
    wCross l = wCross l' := by
  funext i k
  unfold wCross
  rw [wMean_perm (h.map _), wMean_perm (h.map fun s => (s.1, s.2.2))]
  exact (h.map _).sum_eq

section
variable {l l' : List (ℝ × (Fin 1 → ℂ) × (Fin (n + 1) → ℂ))} (h : l.Perm l')
include h

theorem specF_perm : specF l = specF l' := by
  funext i
  unfold specF
  rw [wCross_perm (h.map _)]

theorem specS_perm : specS l = specS l' := by
  unfold specS
  rw [wCross_perm (h.map _)]

theorem specQS_perm (cfg : TdvpCfg n) : specQS cfg l = specQS cfg l' := by
  unfold specQS
  rw [specS_perm h]

theorem specQF_perm (cfg : TdvpCfg n) : specQF cfg l = specQF cfg l' := by
  unfold specQF
  rw [specF_perm h]

theorem specEqn_perm (cfg : TdvpCfg n) : specEqn cfg l = specEqn cfg l' := by
  unfold specEqn
  rw [specF_perm h, specS_perm h, wMean_perm (h.map _), wVar_perm (h.map _)]

theorem forceSamples_perm (cfg : TdvpCfg n) (V : Matrix (Fin (n + 1)) (Fin (n + 1)) ℂ) :
    (forceSamples cfg V l).Perm (forceSamples cfg V l') := by
  unfold forceSamples
  rw [wMean_perm (h.map _), wMean_perm (h.map fun s => (s.1, s.2.1))]
  exact h.map _

end

/-- With a sample of weight zero the signal-to-noise ratio is NaN. -/
theorem tdvpSnr_zero (cfg : TdvpCfg n) (r : ℕ)
    (joint : World (ℝ × (Fin 1 → ℂ) × (Fin (n + 1) → ℂ))) (h : ∀ r ∈ joint, r ≠ [])
    (E : SObs (Fin 1)) (G : SObs (Fin (n + 1))) (hd : IsTdvpData joint E G) (sp : TdvpSpectrum n)
    (hz : ∃ s ∈ allSamples joint, s.1 = 0) : tdvpSnr cfg r E G sp = .ok fun _ => .nan := by
  obtain ⟨hE, hG⟩ := hd
  let j' : World (ℝ × (Fin (n + 1) → ℂ) × (Fin 1 → ℂ)) :=
    World.map (fun s => (s.1, s.2.2, s.2.1)) joint
  have hj : ∀ r ∈ j', r ≠ [] := World.map_ne _ _ h
  have e1 : World.map (fun s => (s.1, s.2.1)) j' = World.map (fun s => (s.1, s.2.2)) joint :=
    World.map_map _ _ _
  have e2 : World.map (fun s => (s.1, s.2.2)) j' = World.map (fun s => (s.1, s.2.1)) joint :=
    World.map_map _ _ _
  obtain ⟨s, hs, h0⟩ := hz
  obtain ⟨a, b, ha, hb, hc, -⟩ := c43_zero_weight_violated j' hj
    ⟨(s.1, s.2.2, s.2.1), by
      rw [allSamples_wmap]
      exact List.mem_map.mpr ⟨s, hs, rfl⟩, h0⟩
  rw [e1, hG] at ha
  rw [e2, hE] at hb
  obtain rfl := Except.ok.inj ha
  obtain rfl := Except.ok.inj hb
  unfold tdvpSnr
  rw [hc]
  rfl

/-- `solve` gives the same on all ranks of all layouts of the same samples. -/
theorem tdvpSolve_layout (cfg : TdvpCfg n) (r r' : ℕ)
    (joint joint' : World (ℝ × (Fin 1 → ℂ) × (Fin (n + 1) → ℂ))) (E E' : SObs (Fin 1))
    (G G' : SObs (Fin (n + 1))) (hi : TdvpInput joint r E G) (hi' : TdvpInput joint' r' E' G')
    (hp : SameSamples joint joint') (at₀ : TdvpAttrs n) :
    tdvpSolve cfg r (some (E, G)) at₀ = tdvpSolve cfg r' (some (E', G')) at₀ := by
  unfold SameSamples at hp
  obtain ⟨snr, hsnr, heq⟩ := tdvpSolve_eq cfg r joint hi.devices hi.weights hi.rank E G hi.data
  obtain ⟨snr', hsnr', heq'⟩ := tdvpSolve_eq cfg r' joint' hi'.devices hi'.weights hi'.rank E' G' hi'.data
  have hs : snr = snr' := by
    by_cases hpos : ∀ s ∈ allSamples joint, 0 < s.1
    · rw [tdvpSnr_eq cfg r joint hi.devices hpos hi.rank E G hi.data] at hsnr
      rw [tdvpSnr_eq cfg r' joint' hi'.devices (fun s hs => hpos s (hp.mem_iff.mpr hs)) hi'.rank E' G'
        hi'.data] at hsnr'
      rw [← Except.ok.inj hsnr, ← Except.ok.inj hsnr', specQS_perm hp, specQF_perm hp,
        wVar_perm (forceSamples_perm hp cfg _)]
    · push Not at hpos
      obtain ⟨s, hs, hle⟩ := hpos
      have h0 : s.1 = 0 := le_antisymm hle (hi.weights s hs)
      rw [tdvpSnr_zero cfg r joint hi.devices E G hi.data _ ⟨s, hs, h0⟩] at hsnr
      rw [tdvpSnr_zero cfg r' joint' hi'.devices E' G' hi'.data _ ⟨s, hp.mem_iff.mp hs, h0⟩] at hsnr'
      exact (Except.ok.inj hsnr).symm.trans (Except.ok.inj hsnr')
  rw [heq, heq', hs, specQS_perm hp, specQF_perm hp, specEqn_perm hp]

/-! ## Samples without weight -/

/-- Samples without weight do not contribute to sums. -/
theorem sum_dropZero {A B : Type} [AddCommMonoid B] (l : List (ℝ × A)) (f : ℝ × A → B)
    (h : ∀ s ∈ l, s.1 = 0 → f s = 0) :
    (l.map f).sum = ((l.filter fun s => s.1 ≠ 0).map f).sum := by
  induction l with
  | nil => rfl
  | cons s l ih =>
    rw [List.map_cons, List.sum_cons, ih fun s hs => h s (List.mem_cons_of_mem _ hs)]
    by_cases h0 : s.1 = 0
    · rw [List.filter_cons_of_neg (by simp [h0]), h s (by simp) h0, zero_add]
    · rw [List.filter_cons_of_pos (by simp [h0]), List.map_cons, List.sum_cons]

theorem sum_sameWeighted {A B : Type} [AddCommMonoid B] {l l' : List (ℝ × A)}
    (h : (l.filter fun s => s.1 ≠ 0).Perm (l'.filter fun s => s.1 ≠ 0)) (f : ℝ × A → B)
    (hf : ∀ s, s.1 = 0 → f s = 0) : (l.map f).sum = (l'.map f).sum := by
  rw [sum_dropZero l f fun s _ => hf s, sum_dropZero l' f fun s _ => hf s]
  exact (h.map f).sum_eq

theorem wMean_padded {A B : Type} [AddCommGroup B] [Module ℝ B] {l l' : List (ℝ × A)}
    (h : (l.filter fun s => s.1 ≠ 0).Perm (l'.filter fun s => s.1 ≠ 0)) (f : A → B) :
    wMean (l.map fun s => (s.1, f s.2)) = wMean (l'.map fun s => (s.1, f s.2)) := by
  unfold wMean
  rw [List.map_map, List.map_map]
  exact sum_sameWeighted h _ fun s hs => by simp [hs]

theorem wVar_padded {A ι : Type} {l l' : List (ℝ × A)}
    (h : (l.filter fun s => s.1 ≠ 0).Perm (l'.filter fun s => s.1 ≠ 0)) (f : A → ι → ℂ) :
    wVar (l.map fun s => (s.1, f s.2)) = wVar (l'.map fun s => (s.1, f s.2)) := by
  funext k
  unfold wVar
  rw [wMean_padded h, List.map_map, List.map_map]
  exact sum_sameWeighted h _ fun s hs => by simp [hs]

theorem wCross_padded {A ι κ : Type} {l l' : List (ℝ × A)}
    (h : (l.filter fun s => s.1 ≠ 0).Perm (l'.filter fun s => s.1 ≠ 0)) (f : A → ι → ℂ) (g : A → κ → ℂ) :
    wCross (l.map fun s => (s.1, f s.2, g s.2)) = wCross (l'.map fun s => (s.1, f s.2, g s.2)) := by
  funext i k
  unfold wCross
  simp only [List.map_map, Function.comp_def]
  rw [wMean_padded h f, wMean_padded h g]
  exact sum_sameWeighted h _ fun s hs => by simp [hs]

section
variable {l l' : List (ℝ × (Fin 1 → ℂ) × (Fin (n + 1) → ℂ))}
  (h : (l.filter fun s => s.1 ≠ 0).Perm (l'.filter fun s => s.1 ≠ 0))
include h

theorem specF_padded : specF l = specF l' := by
  funext i
  unfold specF
  rw [wCross_padded h (fun s => s.2) fun s => s.1]

theorem specS_padded : specS l = specS l' := by
  unfold specS
  rw [wCross_padded h (fun s => s.2) fun s => s.2]

theorem specQS_padded (cfg : TdvpCfg n) : specQS cfg l = specQS cfg l' := by
  unfold specQS
  rw [specS_padded h]

theorem specQF_padded (cfg : TdvpCfg n) : specQF cfg l = specQF cfg l' := by
  unfold specQF
  rw [specF_padded h]

theorem specEqn_padded (cfg : TdvpCfg n) : specEqn cfg l = specEqn cfg l' := by
  unfold specEqn
  rw [specF_padded h, specS_padded h, wMean_padded h fun s => s.1, wVar_padded h fun s => s.1]

theorem fisherOf_padded (i j : Fin (n + 1)) : fisherOf l i j = fisherOf l' i j := by
  unfold fisherOf
  have hm := wMean_padded h fun s : (Fin 1 → ℂ) × (Fin (n + 1) → ℂ) => s.2
  rw [hm]
  exact sum_sameWeighted h _ fun s hs => by simp [hs]

theorem forceOf_padded (i : Fin (n + 1)) : forceOf l i = forceOf l' i := by
  unfold forceOf
  have hm := wMean_padded h fun s : (Fin 1 → ℂ) × (Fin (n + 1) → ℂ) => s.2
  have hm' := wMean_padded h fun s : (Fin 1 → ℂ) × (Fin (n + 1) → ℂ) => s.1
  rw [hm, hm']
  exact sum_sameWeighted h _ fun s hs => by simp [hs]

end

theorem exact_loop (cfg : TdvpCfg n) (hx : cfg.isExact = true) (sp : TdvpSpectrum n)
    (snr snr' : Fin (n + 1) → Num) (F : Fin (n + 1) → ℂ) :
    pinvLoop cfg sp snr F = pinvLoop cfg sp snr' F := by
  have : pinvBody cfg sp snr F = pinvBody cfg sp snr' F := by
    funext s
    unfold pinvBody tdvpRegularizer
    rw [hx]
    rfl
  unfold pinvLoop
  rw [this]

/-- `solve` with an exact sampler does not see samples without weight, except in the SNR, which it does
not use. -/
theorem tdvpSolve_padded (cfg : TdvpCfg n) (hx : cfg.isExact = true) (r r' : ℕ)
    (joint joint' : World (ℝ × (Fin 1 → ℂ) × (Fin (n + 1) → ℂ))) (E E' : SObs (Fin 1))
    (G G' : SObs (Fin (n + 1))) (hi : TdvpInput joint r E G) (hi' : TdvpInput joint' r' E' G')
    (hp : SameWeighted joint joint') (at₀ : TdvpAttrs n) (res : SolveRes n) (atS : TdvpAttrs n)
    (h : tdvpSolve cfg r (some (E, G)) at₀ = .ok (res, atS)) :
    ∃ snr, tdvpSolve cfg r' (some (E', G')) at₀ = .ok (res, { atS with snr := some snr }) := by
  unfold SameWeighted at hp
  obtain ⟨snr, hsnr, heq⟩ := tdvpSolve_eq cfg r joint hi.devices hi.weights hi.rank E G hi.data
  obtain ⟨snr', hsnr', heq'⟩ := tdvpSolve_eq cfg r' joint' hi'.devices hi'.weights hi'.rank E' G' hi'.data
  rw [heq, specQS_padded hp, specQF_padded hp, specEqn_padded hp, exact_loop cfg hx _ snr snr'] at h
  refine ⟨snr', ?_⟩
  rw [heq']
  cases hl : pinvLoop cfg (tdvpEigenbasis cfg (specQS cfg (allSamples joint'))
      (specQF cfg (allSamples joint'))) snr' (specQF cfg (allSamples joint')) with
  | none => rw [hl] at h; cases h
  | some s =>
    rw [hl] at h
    dsimp only at h ⊢
    cases hu : tdvpUpdate cfg (tdvpEigenbasis cfg (specQS cfg (allSamples joint'))
      (specQF cfg (allSamples joint'))) s with
    | error e => rw [hu] at h; cases h
    | ok res' =>
      rw [hu] at h
      simp only [Except.ok.injEq, Prod.mk.injEq] at h
      obtain ⟨rfl, rfl⟩ := h
      rfl

/-! ## Pseudo-inverses -/

/-- Functions of `X X†` and of `X† X`, with any choice of eigenvectors. -/
theorem push_through {M m : ℕ} (X : Matrix (Fin M) (Fin m) ℂ) (ev : Fin M → ℝ)
    (V : Matrix (Fin M) (Fin M) ℂ) (ev' : Fin m → ℝ) (V' : Matrix (Fin m) (Fin m) ℂ)
    (h : IsEigh (X * Xᴴ) ev V) (h' : IsEigh (Xᴴ * X) ev' V') :
    (∀ f : ℝ → ℝ, Xᴴ * (V * Matrix.diagonal (fun k => ((f (ev k) : ℝ) : ℂ)) * Vᴴ)
      = V' * Matrix.diagonal (fun k => ((f (ev' k) : ℝ) : ℂ)) * V'ᴴ * Xᴴ) ∧
    (⨆ k, |ev k|) = ⨆ k, |ev' k| := by
  have hVV : V * Vᴴ = 1 := mul_eq_one_comm.mp h.unitary
  have hVV' : V' * V'ᴴ = 1 := mul_eq_one_comm.mp h'.unitary
  set W : Matrix (Fin m) (Fin M) ℂ := V'ᴴ * Xᴴ * V with hW
  have hadj : V'ᴴ * (Xᴴ * X) = Matrix.diagonal (fun k => (ev' k : ℂ)) * V'ᴴ := by
    have := congrArg Matrix.conjTranspose h'.decomp
    rw [Matrix.conjTranspose_mul, Matrix.conjTranspose_mul, Matrix.conjTranspose_mul,
      Matrix.diagonal_conjTranspose, Matrix.conjTranspose_conjTranspose] at this
    rw [this]
    congr 2
    funext k
    simp
  have hDW : Matrix.diagonal (fun k => (ev' k : ℂ)) * W = W * Matrix.diagonal (fun k => (ev k : ℂ)) := by
    rw [hW, Matrix.mul_assoc V'ᴴ Xᴴ V, ← Matrix.mul_assoc, ← hadj, Matrix.mul_assoc V'ᴴ (Xᴴ * X),
      Matrix.mul_assoc Xᴴ, ← Matrix.mul_assoc X, h.decomp]
    simp only [Matrix.mul_assoc]
  have hent : ∀ k l, W k l ≠ 0 → ev' k = ev l := by
    intro k l hne
    have := congrFun (congrFun hDW k) l
    rw [Matrix.diagonal_mul, Matrix.mul_diagonal, mul_comm (W k l)] at this
    exact_mod_cast mul_right_cancel₀ hne this
  have hWW : W * Wᴴ = Matrix.diagonal (fun k => (ev' k : ℂ)) := by
    rw [hW, Matrix.conjTranspose_mul, Matrix.conjTranspose_mul, Matrix.conjTranspose_conjTranspose,
      Matrix.conjTranspose_conjTranspose, Matrix.mul_assoc, ← Matrix.mul_assoc V, hVV, Matrix.one_mul,
      Matrix.mul_assoc, ← Matrix.mul_assoc Xᴴ, h'.decomp, ← Matrix.mul_assoc, h'.unitary, Matrix.one_mul]
  have hWW' : Wᴴ * W = Matrix.diagonal (fun k => (ev k : ℂ)) := by
    rw [hW, Matrix.conjTranspose_mul, Matrix.conjTranspose_mul, Matrix.conjTranspose_conjTranspose,
      Matrix.conjTranspose_conjTranspose, Matrix.mul_assoc V'ᴴ, Matrix.mul_assoc, Matrix.mul_assoc X,
      ← Matrix.mul_assoc V', hVV', Matrix.one_mul, ← Matrix.mul_assoc X, h.decomp, ← Matrix.mul_assoc,
      h.unitary, Matrix.one_mul]
  constructor
  · intro f
    have hf : Matrix.diagonal (fun k => ((f (ev' k) : ℝ) : ℂ)) * W
        = W * Matrix.diagonal (fun k => ((f (ev k) : ℝ) : ℂ)) := by
      ext k l
      rw [Matrix.diagonal_mul, Matrix.mul_diagonal]
      by_cases hne : W k l = 0
      · rw [hne, mul_zero, zero_mul]
      · rw [hent k l hne, mul_comm]
    calc Xᴴ * (V * Matrix.diagonal (fun k => ((f (ev k) : ℝ) : ℂ)) * Vᴴ)
        = V' * (W * Matrix.diagonal (fun k => ((f (ev k) : ℝ) : ℂ))) * Vᴴ := by
          rw [hW]
          simp only [← Matrix.mul_assoc]
          rw [hVV', Matrix.one_mul]
      _ = V' * Matrix.diagonal (fun k => ((f (ev' k) : ℝ) : ℂ)) * (V'ᴴ * (Xᴴ * (V * Vᴴ))) := by
          rw [← hf, hW]
          simp only [Matrix.mul_assoc]
      _ = _ := by rw [hVV, Matrix.mul_one, ← Matrix.mul_assoc]
  · have hb : BddAbove (Set.range fun k => |ev k|) := Set.Finite.bddAbove (Set.finite_range _)
    have hb' : BddAbove (Set.range fun k => |ev' k|) := Set.Finite.bddAbove (Set.finite_range _)
    apply le_antisymm
    · refine Real.iSup_le (fun l => ?_) (Real.iSup_nonneg fun k => abs_nonneg _)
      by_cases h0 : ev l = 0
      · rw [h0, abs_zero]
        exact Real.iSup_nonneg fun k => abs_nonneg _
      · obtain ⟨k, hk⟩ : ∃ k, W k l ≠ 0 := by
          by_contra hno
          push Not at hno
          have := congrFun (congrFun hWW' l) l
          rw [Matrix.mul_apply, Matrix.diagonal_apply_eq] at this
          simp [hno] at this
          exact h0 (by exact_mod_cast this.symm)
        rw [← hent k l hk]
        exact le_ciSup hb' k
    · refine Real.iSup_le (fun k => ?_) (Real.iSup_nonneg fun k => abs_nonneg _)
      by_cases h0 : ev' k = 0
      · rw [h0, abs_zero]
        exact Real.iSup_nonneg fun k => abs_nonneg _
      · obtain ⟨l, hl⟩ : ∃ l, W k l ≠ 0 := by
          by_contra hno
          push Not at hno
          have := congrFun (congrFun hWW k) k
          rw [Matrix.mul_apply, Matrix.diagonal_apply_eq] at this
          simp [hno] at this
          exact h0 (by exact_mod_cast this.symm)
        rw [hent k l hl]
        exact le_ciSup hb l

end JVMC
