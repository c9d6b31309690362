import Verif.Lemmas.CustomOp
import Verif.Props.Operator

/-!
# C140: operators defined by a user
-/

namespace JVMC

open Spec

/-- **C140**: if `compile()` returns a function with the documented interface (the list of connected configurations, as an
array, and the matrix elements) then `get_O_loc` is, for every sample, the sum of `O_{s,s'} ψ(s') / ψ(s)` over the
connected configurations, without those whose matrix elements are at most `1e-6`. For configurations of any shape, any
number of samples and any number of connected configurations. -/
theorem c140_interface (f : OpFun) (shape : List ℕ) (m : ℕ) (hm : 0 < m) (conn : List ℤ → List (List ℤ × ℂ))
    (hf : ReturnsList f shape m conn) (net : IntArr → Except PyErr ℂ) (logPsi : List ℤ → ℂ)
    (hnet : ∀ s : List ℤ, s.length = shape.prod → net ⟨shape, s⟩ = .ok (logPsi s))
    (samples : List (List ℤ)) (hs : ∀ s ∈ samples, s.length = shape.prod) :
    getOLocArr f net (samples.map fun s => ⟨shape, s⟩) =
      .ok (samples.map fun s => (((conn s).filter fun e => (1e-6 : ℝ) < ‖e.2‖).map fun e =>
        e.2 * (Complex.exp (logPsi e.1) / Complex.exp (logPsi s))).sum) := by
  have hops : ∀ s ∈ samples, (conn s).length = m := fun s h => (hf s (hs s h)).1
  obtain ⟨hlen, hrow⟩ := getSPrimes_rows conn samples m hops
  have hmem : ∀ row ∈ getSPrimes conn samples, ∀ e ∈ row, e.1.length = shape.prod := by
    intro row hr e he
    obtain ⟨k, hk, rfl⟩ := List.getElem_of_mem hr
    obtain ⟨pad, hp, hh⟩ := hrow k (by omega) hk
    rw [hh] at he
    have hsk := hf _ (hs _ (List.getElem_mem (by omega : k < samples.length)))
    rcases List.mem_append.1 he with h | h
    · exact hsk.2.1 e (List.mem_filter.1 h).1
    · obtain ⟨e', he', h3⟩ := List.mem_map.1 (hp e h).2
      rw [← h3]
      exact hsk.2.1 e' he'
  unfold getOLocArr
  rw [List.mapM_map, mapM_ok_map (net ∘ fun s => ⟨shape, s⟩) (fun s => logPsi s) samples (fun s h => hnet s (hs s h)),
    okBind,
    getSPrimesArr_eq f shape m conn hm hf samples hs, okBind]
  dsimp only
  have h3 : (((getSPrimes conn samples).map fun row => row.map fun e => (⟨shape, e.1⟩ : IntArr)).flatten).mapM net
      = .ok ((getSPrimes conn samples).map fun row => row.map fun e => logPsi e.1).flatten := by
    rw [show ((getSPrimes conn samples).map fun row => row.map fun e => (⟨shape, e.1⟩ : IntArr)).flatten
        = (getSPrimes conn samples).flatten.map fun e => (⟨shape, e.1⟩ : IntArr) from by rw [List.map_flatten],
      show ((getSPrimes conn samples).map fun row => row.map fun e => logPsi e.1).flatten
        = (getSPrimes conn samples).flatten.map fun e => logPsi e.1 from by rw [List.map_flatten], List.mapM_map]
    apply mapM_ok_map
    intro e he
    obtain ⟨row, hr, he⟩ := List.mem_flatten.1 he
    exact hnet _ (hmem row hr e he)
  rw [h3, okBind, reshapeRows_flatten _ _ (by
    rw [List.forall₂_map_left_iff, List.forall₂_map_right_iff, List.forall₂_same]
    intro row _
    simp)]
  congr 1
  apply List.ext_getElem
  · simp [hlen]
  · intro k h1 h2
    have hk : k < samples.length := by simpa using h2
    obtain ⟨pad, hp, hh⟩ := hrow k hk (by omega)
    simp only [List.getElem_map, List.getElem_zip, hh]
    have hz : ∀ row : List (List ℤ × ℂ), oLocOf (row.map Prod.snd) (logPsi samples[k]) (row.map fun e => logPsi e.1)
        = oLocRow row (logPsi samples[k]) logPsi := by
      intro row
      unfold oLocOf oLocRow
      rw [List.zipWith_map, List.zipWith_self]
    rw [hz, oLocRow_append, oLocRow_zero pad _ _ fun e h => (hp e h).1, add_zero]
    unfold oLocRow
    have hfil : ((conn samples[k]).filter fun e => isNonzero e.2)
        = (conn samples[k]).filter fun e => decide ((1e-6 : ℝ) < ‖e.2‖) := by
      apply List.filter_congr
      intro e _
      rw [Bool.eq_iff_iff, isNonzero_iff, decide_eq_true_eq]
    rw [hfil]
    congr 1
    apply List.map_congr_left
    intro e _
    rw [Complex.exp_sub]

theorem flip_value {L : ℕ} {s : IntArr} (hs : SpinChain L s) (i : ℕ) (hi : i < L) :
    s.data.set i (if (s.data.getD i 0) = 0 then 1 else 0) = flipAt i s.data := by
  unfold flipAt
  have hi' : i < s.data.length := by rw [hs.2.1]; exact hi
  rw [List.getD_eq_getElem _ _ hi']
  rcases hs.2.2 _ (List.getElem_mem hi') with h | h <;> rw [h] <;> rfl

theorem sxCompile_chain {L : ℕ} {s : IntArr} (hs : SpinChain L s) (i : ℕ) (hi : i < L) :
    sxCompile true i s = .ok (⟨[L], flipAt i s.data⟩, [1]) := by
  have hit : s.item i = .ok ⟨[], (s.data.drop i).take 1⟩ := by
    unfold IntArr.item
    rw [hs.1]
    dsimp only
    rw [min_eq_left (by omega), List.prod_nil, mul_one]
  have hx : ((s.data.drop i).take 1).headD 0 = s.data.getD i 0 := by
    have hi' : i < s.data.length := by rw [hs.2.1]; exact hi
    rw [List.getD_eq_getElem _ _ hi', List.drop_eq_getElem_cons hi']
    rfl
  unfold sxCompile
  simp only [Bool.not_true, Bool.false_eq_true, if_false]
  rw [hit, okBind]
  simp only [ne_eq, not_true_eq_false, if_false]
  rw [hx, flip_value hs i hi, hs.1]

/-- C140, the example of the documentation: if JAX has `jax.ops.index_update`, the function that `SxOperator` returns maps a
configuration of a chain to the one with the spin at `siteIdx` flipped, with matrix element 1. -/
theorem c140_example_partial (L i : ℕ) (hi : i < L) (s : IntArr) (hs : SpinChain L s) :
    sxCompile true i s = .ok (⟨[L], flipAt i s.data⟩, [1]) :=
  sxCompile_chain hs i hi

/-- C140, disagreement: with the versions of JAX that the package requires, the example of the documentation raises
`AttributeError` for every configuration. -/
theorem c140_removed_violated (i : ℕ) (s : IntArr) (samples : List IntArr) :
    sxCompile false i s = .error .attributeError ∧
    getSPrimesArr (sxCompile false i) (s :: samples) = .error .attributeError := by
  have h : sxCompile false i s = .error .attributeError := rfl
  refine ⟨h, ?_⟩
  unfold getSPrimesArr
  rw [List.mapM_cons, h]
  rfl

theorem findNonzero_one : findNonzero [(1 : ℂ)] = ([0], 1) := by
  have h : isNonzero (1 : ℂ) = true := by
    rw [isNonzero_iff, norm_one]
    norm_num
  rw [findNonzero_eq]
  simp [nzPos, h]

theorem foldl_max_ones (n : ℕ) : (List.replicate (n + 1) 1).foldl max 0 = 1 := by
  induction n with
  | zero => rfl
  | succ n ih =>
    rw [List.replicate_succ', List.foldl_append, ih]
    rfl

/-- The first of a list of connected configurations with one element of the matrix. -/
theorem getSPrimesArr_one (f : OpFun) (g : IntArr → IntArr) (samples : List IntArr) (hne : samples ≠ [])
    (hf : ∀ s ∈ samples, f s = .ok (g s, [1])) (h : IntArr → IntArr) (hh : ∀ s ∈ samples, (g s).item 0 = .ok (h s)) :
    getSPrimesArr f samples = .ok (samples.map h, samples.map fun _ => [1]) := by
  unfold getSPrimesArr
  rw [mapM_ok_map f (fun s => (g s, [1])) samples hf, okBind]
  dsimp only
  have hnz : (samples.map fun s => (g s, [(1 : ℂ)])).map (fun o => findNonzero o.2) = samples.map fun _ => ([0], 1) := by
    rw [List.map_map]
    apply List.map_congr_left
    intro s _
    exact findNonzero_one
  rw [hnz]
  have hmost : ((samples.map fun _ => (([0], 1) : List ℕ × ℕ)).map Prod.snd).foldl max 0 = 1 := by
    rw [List.map_map, show (Prod.snd ∘ fun _ : IntArr => (([0], 1) : List ℕ × ℕ)) = fun _ => 1 from rfl, List.map_const']
    obtain ⟨n, hn⟩ := Nat.exists_eq_succ_of_ne_zero (List.length_pos_iff.2 hne).ne'
    rw [hn]
    exact foldl_max_ones n
  rw [hmost, List.zip_map', List.mapM_map,
    mapM_ok_map _ (fun s => [h s]) samples (by
      intro s hs
      dsimp only [Function.comp_apply]
      rw [show List.take 1 [0] = [0] from rfl, List.mapM_cons, hh s hs, okBind]
      rfl), okBind]
  congr 2
  · clear * -
    induction samples with
    | nil => rfl
    | cons s l ih => rw [List.map_cons, List.flatten_cons, ih]; rfl
  · rw [List.zipWith_map, List.zipWith_self]
    apply List.map_congr_left
    intro s _
    simp [setZeroToZero, gatherIdx, setZeroScan]

/-- C140, disagreement: even with `jax.ops.index_update`, `get_s_primes` of the documented example does not return
configurations, because `compile()` returns one configuration instead of a list: the spins of a configuration are taken for
the list, and of these the first one is returned. The arrays that the network gets have no axes. -/
theorem c140_handed_violated (L i : ℕ) (hi : i < L) (samples : List IntArr) (hne : samples ≠ [])
    (hs : ∀ s ∈ samples, SpinChain L s) :
    getSPrimesArr (sxCompile true i) samples =
      .ok (samples.map fun s => ⟨[], (flipAt i s.data).take 1⟩, samples.map fun _ => [1]) := by
  apply getSPrimesArr_one (sxCompile true i) (fun s => ⟨[L], flipAt i s.data⟩) samples hne
  · intro s h
    exact c140_example_partial L i hi s (hs s h)
  · intro s h
    unfold IntArr.item
    dsimp only
    rw [Nat.zero_min, zero_mul, List.drop_zero, List.prod_nil]

/-- C140, disagreement: for every network that accepts only configurations of the chain, `get_O_loc` of the documented example
raises an exception. -/
theorem c140_local_violated (L i : ℕ) (hi : i < L) (samples : List IntArr) (hne : samples ≠ [])
    (hs : ∀ s ∈ samples, SpinChain L s) (net : IntArr → Except PyErr ℂ)
    (hnet : ∀ a, a.shape ≠ [L] → ∃ e, net a = .error e) :
    ∃ e, getOLocArr (sxCompile true i) net samples = .error e := by
  unfold getOLocArr
  cases samples.mapM net with
  | error e => exact ⟨e, rfl⟩
  | ok l =>
    rw [okBind, c140_handed_violated L i hi samples hne hs, okBind]
    dsimp only
    cases samples with
    | nil => exact absurd rfl hne
    | cons s rest =>
      obtain ⟨e, he⟩ := hnet ⟨[], (flipAt i s.data).take 1⟩ (by simp)
      rw [List.map_cons, List.mapM_cons, he]
      exact ⟨e, rfl⟩

/-- C140, disagreement: on lattices with two axes the example raises `ValueError`, although it flattens `sp`. -/
theorem c140_lattice_violated (L M i : ℕ) (s : List ℤ) : sxCompile true i ⟨[L, M], s⟩ = .error .valueError := by
  rfl

/-- C140: with one more axis (a list with one configuration) the example is right: `get_O_loc` is `ψ(s') / ψ(s)`, where `s'`
has the spin at `siteIdx` flipped, which is the local estimator of `σˣ`. -/
theorem c140_repaired (L i : ℕ) (hi : i < L) (samples : List IntArr) (hne : samples ≠ [])
    (hs : ∀ s ∈ samples, SpinChain L s) (net : IntArr → Except PyErr ℂ) (logPsi : List ℤ → ℂ)
    (hnet : ∀ s : List ℤ, s.length = L → net ⟨[L], s⟩ = .ok (logPsi s)) :
    getOLocArr (sxRepaired i) net samples =
      .ok (samples.map fun s => Complex.exp (logPsi (flipAt i s.data)) / Complex.exp (logPsi s.data)) := by
  have hlen : ∀ s : List ℤ, (flipAt i s).length = s.length := fun s => List.length_set ..
  have hsp : getSPrimesArr (sxRepaired i) samples =
      .ok (samples.map fun s => ⟨[L], flipAt i s.data⟩, samples.map fun _ => [1]) := by
    apply getSPrimesArr_one (sxRepaired i) (fun s => ⟨[1, L], flipAt i s.data⟩) samples hne
    · intro s h
      unfold sxRepaired
      rw [c140_example_partial L i hi s (hs s h), okBind]
    · intro s h
      unfold IntArr.item
      dsimp only
      rw [Nat.zero_min, zero_mul, List.drop_zero, List.prod_singleton, List.take_of_length_le]
      rw [hlen, (hs s h).2.1]
  have hn : ∀ s ∈ samples, net s = .ok (logPsi s.data) := by
    intro s h
    have h1 := hs s h
    have : s = ⟨[L], s.data⟩ := by
      cases s
      exact congrArg (IntArr.mk · _) h1.1
    rw [this]
    exact hnet _ h1.2.1
  unfold getOLocArr
  rw [mapM_ok_map _ (fun s => logPsi s.data) samples hn, okBind, hsp, okBind]
  dsimp only
  rw [List.mapM_map, mapM_ok_map _ (fun s => logPsi (flipAt i s.data)) samples (by
    intro s h
    exact hnet _ (by rw [hlen, (hs s h).2.1])), okBind]
  congr 1
  have hr : reshapeRows (samples.map fun _ => [(1 : ℂ)]) (samples.map fun s => logPsi (flipAt i s.data))
      = samples.map fun s => [logPsi (flipAt i s.data)] := by
    clear * -
    induction samples with
    | nil => rfl
    | cons s l ih =>
      rw [List.map_cons, List.map_cons, List.map_cons]
      unfold reshapeRows
      rw [List.length_singleton, List.take_succ_cons, List.take_zero, List.drop_succ_cons, List.drop_zero, ih]
  rw [hr, List.zip_map', List.zip_map', List.map_map]
  apply List.map_congr_left
  intro s _
  simp [oLocOf, Complex.exp_sub]

/-! ## The hypotheses can be met -/

/-- The operator `σᶻ + 3 σˣ` on the first site of a chain of two spins, with the documented interface. -/
private noncomputable def demoOp : OpFun := fun s =>
  .ok (⟨[2, 2], s.data ++ flipAt 0 s.data⟩, [2 * (s.data.getD 0 0 : ℂ) - 1, 3])

example (logPsi : List ℤ → ℂ) :
    getOLocArr demoOp (fun a => .ok (logPsi a.data)) [⟨[2], [0, 1]⟩, ⟨[2], [1, 1]⟩] =
      .ok ([[0, 1], [1, 1]].map fun s : List ℤ =>
        (([(s, 2 * (s.getD 0 0 : ℂ) - 1), (flipAt 0 s, (3 : ℂ))].filter fun e => (1e-6 : ℝ) < ‖e.2‖).map fun e =>
          e.2 * (Complex.exp (logPsi e.1) / Complex.exp (logPsi s))).sum) := by
  refine c140_interface demoOp [2] 2 (by norm_num) (fun s => [(s, 2 * (s.getD 0 0 : ℂ) - 1), (flipAt 0 s, 3)]) ?_ _ logPsi
    (fun _ _ => rfl) [[0, 1], [1, 1]] (by simp)
  intro s h
  refine ⟨rfl, ?_, ?_⟩
  · intro e he
    simp only [List.mem_cons, List.not_mem_nil, or_false] at he
    rcases he with rfl | rfl
    · exact h
    · exact (List.length_set ..).trans h
  · unfold demoOp
    simp

private theorem demo_chain : SpinChain 4 ⟨[4], [0, 0, 0, 0]⟩ :=
  ⟨rfl, rfl, by simp⟩

/-- The configuration of the example script. -/
example : sxCompile true 1 ⟨[4], [0, 0, 0, 0]⟩ = .ok (⟨[4], [0, 1, 0, 0]⟩, [1]) :=
  c140_example_partial 4 1 (by norm_num) _ demo_chain

example : getSPrimesArr (sxCompile true 1) [⟨[4], [0, 0, 0, 0]⟩] = .ok ([⟨[], [0]⟩], [[1]]) :=
  c140_handed_violated 4 1 (by norm_num) _ (by simp) (by simpa using demo_chain)

example : ∃ e, getOLocArr (sxCompile true 1) (fun a => if a.shape = [4] then .ok a.data.sum else .error .typeError)
    [⟨[4], [0, 0, 0, 0]⟩] = .error e :=
  c140_local_violated 4 1 (by norm_num) _ (by simp) (by simpa using demo_chain) _ fun a h => ⟨_, if_neg h⟩

example : getOLocArr (sxRepaired 1) (fun a => if a.shape = [4] then .ok a.data.sum else .error .typeError)
    [⟨[4], [0, 0, 0, 0]⟩] = .ok [Complex.exp (([0, 1, 0, 0] : List ℤ).sum : ℤ) / Complex.exp (([0, 0, 0, 0] : List ℤ).sum : ℤ)] :=
  c140_repaired 4 1 (by norm_num) _ (by simp) (by simpa using demo_chain) _ (fun s => (s.sum : ℤ))
    fun s _ => rfl

end JVMC
