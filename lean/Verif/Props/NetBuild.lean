import Verif.Model.NetBuild
import Verif.Lemmas.Mpi
import Verif.Props.SymNet
import Verif.Lemmas.RnnSym

/-! # Properties C81, C82: networks from descriptions, amplitude and phase networks -/

namespace JVMC

open Spec

/-! ## C82: two networks -/

variable {n : ℕ} {K : Type}

/-- **C82**: a wave function given by two networks is `exp(a(s)) · exp(i b(s))`; further networks are ignored. -/
theorem c82_two_networks (a b : FlaxNet n K) (rest : List (FlaxNet n K)) (avgFun : List ℂ → List ℂ → ℂ)
    (s : Fin n → ℤ) (x y : ℂ) (ha : a.call s = .ok x) (hb : b.call s = .ok y) :
    ∃ psi z, nqsNet (.iterable (a :: b :: rest)) none avgFun = .ok psi ∧ psi.call s = .ok z ∧
      Complex.exp z = Complex.exp x * Complex.exp (Complex.I * y) := by
  refine ⟨_, x + Complex.I * y, rfl, ?_, Complex.exp_add _ _⟩
  change Except.bind (a.call s) _ = _
  rw [ha]
  change Except.bind (b.call s) _ = _
  rw [hb]
  rfl

/-- C82: if both networks return real numbers, the first gives the modulus and the second the phase. -/
theorem c82_modulus_and_phase (a b : FlaxNet n K) (rest : List (FlaxNet n K)) (avgFun : List ℂ → List ℂ → ℂ)
    (s : Fin n → ℤ) (x y : ℝ) (ha : a.call s = .ok x) (hb : b.call s = .ok y) :
    ∃ psi z, nqsNet (.iterable (a :: b :: rest)) none avgFun = .ok psi ∧ psi.call s = .ok z ∧
      ‖Complex.exp z‖ = Real.exp x ∧
      Complex.exp z = ‖Complex.exp z‖ * (Real.cos y + Real.sin y * Complex.I) := by
  obtain ⟨psi, z, h1, h2, h3⟩ := c82_two_networks a b rest avgFun s x y ha hb
  have hn : ‖Complex.exp z‖ = Real.exp x := by
    rw [h3, norm_mul, Complex.norm_exp, Complex.norm_exp]
    simp
  refine ⟨psi, z, h1, h2, hn, ?_⟩
  rw [hn, h3, mul_comm Complex.I, Complex.exp_mul_I]
  push_cast
  rfl

/-- **C82**: `get_sampler_net` evaluates the real part of the logarithmic wave function, for single networks, and
for two networks of which the second returns real numbers, with or without symmetrisation.
Missing: phase networks with complex values, see `c82_sampler_violated`. -/
theorem c82_sampler_net_partial (arg : NetArg n K) (orbit : Option (LatticeSymmetry n))
    (avgFun : List ℂ → List ℂ → ℂ) (psi : FlaxNet n K) (hpsi : nqsNet arg orbit avgFun = .ok psi)
    (hsingle : ∀ net, arg = .single net → net.evalReal = none)
    (hreal : ∀ a b rest, arg = .iterable (a :: b :: rest) → orbit = none → ∀ s y, b.call s = .ok y → y.im = 0)
    (s : Fin n → ℤ) (z : ℂ) (hz : psi.call s = .ok z) : samplerNet psi s = .ok z.re := by
  cases arg with
  | single net =>
    have he := hsingle net rfl
    cases orbit with
    | none =>
      cases hpsi
      unfold samplerNet
      rw [he, Option.getD_none, hz]
      rfl
    | some o =>
      cases hpsi
      unfold samplerNet
      change Except.bind ((symNetModule o net avgFun).call s) _ = _
      rw [hz]
      rfl
  | iterable nets =>
    cases nets with
    | nil => cases hpsi
    | cons a tl =>
      cases orbit with
      | some o =>
        cases hpsi
        unfold samplerNet
        change Except.bind (FlaxNet.call _ s) _ = _
        rw [hz]
        rfl
      | none =>
        cases hpsi
        cases tl with
        | nil =>
          change Except.bind (a.call s) _ = _ at hz
          cases ha : a.call s with
          | error e => rw [ha] at hz; cases hz
          | ok x => rw [ha] at hz; cases hz
        | cons b rest =>
          change Except.bind (a.call s) _ = _ at hz
          unfold samplerNet
          change Except.bind (a.call s) _ = _
          cases ha : a.call s with
          | error e => rw [ha] at hz; cases hz
          | ok x =>
            rw [ha] at hz
            change Except.bind (b.call s) _ = _ at hz
            cases hb : b.call s with
            | error e => rw [hb] at hz; cases hz
            | ok y =>
              rw [hb] at hz
              have h0 := hreal a b rest rfl rfl s y hb
              have hz' : x + Complex.I * y = z := Except.ok.inj hz
              change Except.ok _ = _
              rw [← hz']
              simp [h0]

/-- C82, disagreement: a phase network with complex values changes the modulus, which `get_sampler_net` does not
take into account: the Born probabilities of two configurations differ although the sampler gives them equal
weights. -/
theorem c82_sampler_violated : ∃ (a b psi : FlaxNet 1 Unit) (z : (Fin 1 → ℤ) → ℂ),
    nqsNet (.iterable [a, b]) none avgLog = .ok psi ∧ (∀ s, psi.call s = .ok (z s)) ∧
    samplerNet psi (fun _ => 0) = samplerNet psi (fun _ => 1) ∧
    ‖Complex.exp (z fun _ => 0)‖ ≠ ‖Complex.exp (z fun _ => 1)‖ := by
  refine ⟨⟨fun _ => .ok 0, none, none⟩, ⟨fun s => .ok (Complex.I * (s 0 : ℂ)), none, none⟩, _,
    fun s => 0 + Complex.I * (Complex.I * (s 0 : ℂ)), rfl, fun s => rfl, rfl, ?_⟩
  rw [Complex.norm_exp, Complex.norm_exp]
  simp
  exact fun h => absurd h.symm (by rw [Real.exp_eq_one_iff]; norm_num)

/-- C82: `psi` can generate samples exactly if the first network can, and the samples are those of the first
network; symmetrisation does not change that. -/
theorem c82_generator (a b : FlaxNet n K) (rest : List (FlaxNet n K)) (orbit : Option (LatticeSymmetry n))
    (avgFun : List ℂ → List ℂ → ℂ) :
    ∃ psi, nqsNet (.iterable (a :: b :: rest)) orbit avgFun = .ok psi ∧ psi.sample = a.sample ∧
      (isGenerator psi = true ↔ ∃ f, a.sample = some f) := by
  cases orbit with
  | none => exact ⟨_, rfl, rfl, Option.isSome_iff_exists⟩
  | some o => exact ⟨_, rfl, rfl, Option.isSome_iff_exists⟩

/-- C82: less than two networks are rejected, none by the constructor, one when the wave function is evaluated. -/
theorem c82_too_few (a : FlaxNet n K) (avgFun : List ℂ → List ℂ → ℂ) (s : Fin n → ℤ) (x : ℂ)
    (ha : a.call s = .ok x) :
    nqsNet (n := n) (K := K) (.iterable []) none avgFun = .error .indexError ∧
    ∃ psi, nqsNet (.iterable [a]) none avgFun = .ok psi ∧ psi.call s = .error .indexError := by
  refine ⟨rfl, _, rfl, ?_⟩
  change Except.bind (a.call s) _ = _
  rw [ha]
  rfl

/-- The hypotheses of `c82_sampler_net_partial` are met by two real networks. -/
example : ∃ psi, nqsNet (.iterable [(⟨fun s => .ok (s 0 : ℂ), none, none⟩ : FlaxNet 2 Unit),
      ⟨fun s => .ok (s 1 : ℂ), none, none⟩]) none avgLog = .ok psi ∧
    samplerNet psi ![3, 5] = .ok 3 := by
  refine ⟨_, rfl, ?_⟩
  have h := c82_sampler_net_partial (.iterable [(⟨fun s => .ok (s 0 : ℂ), none, none⟩ : FlaxNet 2 Unit),
      ⟨fun s => .ok (s 1 : ℂ), none, none⟩]) none avgLog _ rfl (by intro _ h; cases h) (by
        intro a b rest h _ s y hy
        cases h
        cases hy
        simp) ![3, 5] (3 + Complex.I * 5) (by
          change Except.ok _ = Except.ok _
          simp)
  rw [h]
  simp

/-! ## C81: networks from descriptions -/

variable {P : Type}

/-- The symmetries of a chain that are in the description. -/
def Descr.gens1D (d : Descr P) (L : ℕ) : Set (Matrix (Fin L) (Fin L) ℤ) :=
  Spec.gens1D L d.translation.present d.reflection.present d.spinflip.present

/-- The symmetries of a square lattice that are in the description. -/
def Descr.gens2D (d : Descr P) (L : ℕ) : Set (Matrix (Fin (L * L)) (Fin (L * L)) ℤ) :=
  Spec.gens2D L d.translation.present d.reflection.present d.rotation.present d.spinflip.present

/-- The factor given in the description for a symmetry: a real or a complex number, one by default. -/
noncomputable def givenFactor : Option SymFactor → ℂ
  | none => 1
  | some (.real x) => x
  | some (.cpx z) => z

theorem fac_given (d : SymDescr) : d.fac.val = givenFactor d.factor := by
  obtain ⟨_, _ | _ | _⟩ := d <;> simp [SymDescr.fac, givenFactor, SymFactor.val]

/-- The activation functions are given by known names (or not at all). -/
def KnownActFun : Option ActFun → Prop
  | none => True
  | some (.name f) => f ∈ ["square", "poly5", "poly6", "elu", "relu", "tanh"]
  | some (.names fs) => ∀ f ∈ fs, f ∈ ["square", "poly5", "poly6", "elu", "relu", "tanh"]
  | some _ => False

/-- The names replaced by the functions they stand for. -/
def functionsOf : Option ActFun → Option ActFun
  | some (.name f) => some (.function f)
  | some (.names fs) => some (.functions fs)
  | a => a

/-- A description of one network; `net` is the network that the constructor of the given type returns for the
given parameters. -/
structure Descr.Describes (mk : NetDescr P → (n : ℕ) → Except PyErr (NetFun n)) (d : Descr P) (n : ℕ)
    (net : NetFun n) : Prop where
  net2 : d.net2 = none
  type : d.net1.type ∈ ["RBM", "FFN", "CNN", "RNN", "RNN2D", "CpxRBM", "CpxCNN"]
  batch : ∃ b, d.batchSize = some b
  act : KnownActFun d.net1.actFun
  make : mk ⟨d.net1.type, functionsOf d.net1.actFun, d.net1.params⟩ n = .ok net

theorem resolveAct_known (d : NetDescr P) (h : KnownActFun d.actFun) :
    resolveAct d = .ok ⟨d.type, functionsOf d.actFun, d.params⟩ := by
  unfold resolveAct
  cases ha : d.actFun with
  | none =>
    obtain ⟨t, a, p⟩ := d
    cases ha
    rfl
  | some a =>
    rw [ha] at h
    cases a with
    | name f =>
      dsimp only [getActivationFunctions]
      rw [if_pos (show f ∈ activationNames from h)]
      rfl
    | names fs =>
      dsimp only [getActivationFunctions]
      rw [if_pos (show ∀ f ∈ fs, f ∈ activationNames from h)]
      rfl
    | function f => exact h.elim
    | functions f => exact h.elim

theorem resolveAct_again (d : NetDescr P) (h : KnownActFun d.actFun) (hne : d.actFun ≠ none) :
    resolveAct ⟨d.type, functionsOf d.actFun, d.params⟩ = .error .keyError := by
  cases ha : d.actFun with
  | none => exact absurd ha hne
  | some a =>
    rw [ha] at h
    cases a with
    | name f => rfl
    | names fs => rfl
    | function f => exact h.elim
    | functions f => exact h.elim

/-- The call, for a description of one network. -/
theorem initNetUtil_eq (mk : NetDescr P → (n : ℕ) → Except PyErr (NetFun n)) (d : Descr P) (dims : List ℕ)
    (n : ℕ) (net : NetFun n) (orbit : LatticeSymmetry n) (hd : d.Describes mk n net) (hdims : dims.prod = n)
    (horb : initOrbit d dims = .ok ⟨n, orbit⟩) :
    ∃ d', initNetUtil mk d dims =
        (.ok ⟨n, symmetrise (generatorType d.net1.type) d.cpxFactor net orbit⟩, d') ∧
      (d.net1.actFun ≠ none → initNetUtil mk d' dims = (.error .keyError, d')) := by
  have hact := resolveAct_known d.net1 hd.act
  obtain ⟨b, hb⟩ := hd.batch
  have ho : initOrbit { d with net1 := ⟨d.net1.type, functionsOf d.net1.actFun, d.net1.params⟩ } dims
      = .ok ⟨n, orbit⟩ := horb
  refine ⟨{ d with net1 := ⟨d.net1.type, functionsOf d.net1.actFun, d.net1.params⟩ }, ?_, ?_⟩
  · unfold initNetUtil
    rw [hact]
    dsimp only
    rw [ho]
    dsimp only
    rw [hd.net2]
    dsimp only
    unfold buildOne getNet
    dsimp only
    rw [if_pos (show d.net1.type ∈ netTypeNames from hd.type), hd.make, hb]
    dsimp only
    rw [if_pos hdims]
    rfl
  · intro hne
    unfold initNetUtil
    dsimp only
    rw [resolveAct_again _ hd.act hne]

/-- The symmetries and factors that are passed on, on a chain. -/
theorem initOrbit_1d (d : Descr P) (L : ℕ) (hrot : d.rotation.present = false) :
    initOrbit d [L] = .ok ⟨L, getOrbit1D L d.translation.present d.reflection.present d.spinflip.present
      d.translation.fac.val d.reflection.fac.val d.spinflip.fac.val⟩ := by
  unfold initOrbit
  dsimp only
  rw [hrot]
  rfl

theorem fac_default (d : SymDescr) (h : d.factor = none) : d.fac = .real 1 := by
  unfold SymDescr.fac
  rw [h]
  rfl

theorem cpxFactor_default (d : Descr P) (ht : d.translation.factor = none) (hr : d.reflection.factor = none)
    (hq : d.rotation.factor = none) (hs : d.spinflip.factor = none) : d.cpxFactor = false := by
  unfold Descr.cpxFactor
  simp [fac_default _ ht, fac_default _ hr, fac_default _ hq, fac_default _ hs, SymFactor.isCpx]

/-- **C81** on chains: a wave function built from the description of one network is invariant under all symmetries
that the description mentions, for every kind of network (the averaging function depends on the kind).
Missing: descriptions with two networks, with a "rotation", and descriptions that have been used before, see
`c81_two_networks_violated`, `c81_rotation_violated`, `c81_reuse_violated`. -/
theorem c81_invariant_1d_partial (mk : NetDescr P → (n : ℕ) → Except PyErr (NetFun n)) (d : Descr P) (L : ℕ)
    (hL : 0 < L) (net : NetFun L) (hd : d.Describes mk L net) (hrot : d.rotation.present = false)
    (hfac : d.translation.factor = none ∧ d.reflection.factor = none ∧ d.rotation.factor = none
      ∧ d.spinflip.factor = none) :
    ∃ d' psi, initNetUtil mk d [L] = (.ok ⟨L, psi⟩, d') ∧
      ∀ h ∈ Submonoid.closure (d.gens1D L), ∀ s s', IsImage h s s' → psi s' = psi s := by
  have ho : initOrbit d [L] = .ok ⟨L, getOrbit1D L d.translation.present d.reflection.present d.spinflip.present
      1 1 1⟩ := by
    unfold initOrbit
    dsimp only
    rw [hrot, fac_default _ hfac.1, fac_default _ hfac.2.1, fac_default _ hfac.2.2.2]
    simp [SymFactor.val]
  obtain ⟨d', h1, _⟩ := initNetUtil_eq mk d [L] L net _ hd (by simp) ho
  refine ⟨d', _, h1, ?_⟩
  intro h hh s s' hs
  rw [cpxFactor_default d hfac.1 hfac.2.1 hfac.2.2.1 hfac.2.2.2]
  cases net with
  | real f =>
    unfold symmetrise
    dsimp only
    cases generatorType d.net1.type with
    | true =>
      rw [if_pos rfl, if_pos rfl, ((c57_invariant_other L hL d.translation.present d.reflection.present false
        d.spinflip.present 1 1 1 1).1 (fun x => (f x : ℂ)) h hh s s' hs).2]
    | false =>
      simp only [Bool.false_eq_true, if_false]
      rw [(c57_invariant_real L hL d.translation.present d.reflection.present false
        d.spinflip.present).1 f h hh s s' hs]
  | cpx f =>
    unfold symmetrise
    dsimp only
    cases generatorType d.net1.type with
    | true =>
      rw [if_pos rfl, if_pos rfl, ((c57_invariant_other L hL d.translation.present d.reflection.present false
        d.spinflip.present 1 1 1 1).1 f h hh s s' hs).2]
    | false =>
      simp only [Bool.false_eq_true, if_false]
      rw [c57_invariant_1d L hL d.translation.present d.reflection.present d.spinflip.present f h hh s s' hs]

/-- **C81** on square lattices. -/
theorem c81_invariant_2d_partial (mk : NetDescr P → (n : ℕ) → Except PyErr (NetFun n)) (d : Descr P) (L : ℕ)
    (hL : 0 < L) (net : NetFun (L * L)) (hd : d.Describes mk (L * L) net)
    (hfac : d.translation.factor = none ∧ d.reflection.factor = none ∧ d.rotation.factor = none
      ∧ d.spinflip.factor = none) :
    ∃ d' psi, initNetUtil mk d [L, L] = (.ok ⟨L * L, psi⟩, d') ∧
      ∀ h ∈ Submonoid.closure (d.gens2D L), ∀ s s', IsImage h s s' → psi s' = psi s := by
  have ho : initOrbit d [L, L] = .ok ⟨L * L, getOrbit2D L d.translation.present d.reflection.present
      d.rotation.present d.spinflip.present 1 1 1 1⟩ := by
    unfold initOrbit
    dsimp only
    rw [fac_default _ hfac.1, fac_default _ hfac.2.1, fac_default _ hfac.2.2.1, fac_default _ hfac.2.2.2]
    simp [SymFactor.val]
  obtain ⟨d', h1, _⟩ := initNetUtil_eq mk d [L, L] (L * L) net _ hd (by simp) ho
  refine ⟨d', _, h1, ?_⟩
  intro h hh s s' hs
  rw [cpxFactor_default d hfac.1 hfac.2.1 hfac.2.2.1 hfac.2.2.2]
  cases net with
  | real f =>
    unfold symmetrise
    dsimp only
    cases generatorType d.net1.type with
    | true =>
      rw [if_pos rfl, if_pos rfl, ((c57_invariant_other L hL d.translation.present d.reflection.present
        d.rotation.present d.spinflip.present 1 1 1 1).2 (fun x => (f x : ℂ)) h hh s s' hs).2]
    | false =>
      simp only [Bool.false_eq_true, if_false]
      rw [(c57_invariant_real L hL d.translation.present d.reflection.present d.rotation.present
        d.spinflip.present).2 f h hh s s' hs]
  | cpx f =>
    unfold symmetrise
    dsimp only
    cases generatorType d.net1.type with
    | true =>
      rw [if_pos rfl, if_pos rfl, ((c57_invariant_other L hL d.translation.present d.reflection.present
        d.rotation.present d.spinflip.present 1 1 1 1).2 f h hh s s' hs).2]
    | false =>
      simp only [Bool.false_eq_true, if_false]
      rw [c57_invariant_2d L hL d.translation.present d.reflection.present d.rotation.present d.spinflip.present f
        h hh s s' hs]

/-- C81, disagreement: `init_net` changes the dictionary it is given; a second call with the same description
raises `KeyError` whenever activation functions are given. -/
theorem c81_reuse_violated (mk : NetDescr P → (n : ℕ) → Except PyErr (NetFun n)) (d : Descr P) (L : ℕ)
    (net : NetFun L) (hd : d.Describes mk L net) (hrot : d.rotation.present = false) (hact : d.net1.actFun ≠ none) :
    ∃ d' psi, initNetUtil mk d [L] = (.ok psi, d') ∧ initNetUtil mk d' [L] = (.error .keyError, d') := by
  obtain ⟨d', h1, h2⟩ := initNetUtil_eq mk d [L] L net _ hd (by simp) (initOrbit_1d d L hrot)
  exact ⟨d', _, h1, h2 hact⟩

/-- C81, disagreement: a description with two networks never gives a wave function. -/
theorem c81_two_networks_violated (mk : NetDescr P → (n : ℕ) → Except PyErr (NetFun n)) (d : Descr P)
    (net2 : NetDescr P) (h : d.net2 = some net2) (dims : List ℕ) :
    ∃ e, (initNetUtil mk d dims).1 = .error e := by
  unfold initNetUtil
  cases resolveAct d.net1 with
  | error e => exact ⟨e, rfl⟩
  | ok net1 =>
    dsimp only
    cases initOrbit { d with net1 := net1 } dims with
    | error e => exact ⟨e, rfl⟩
    | ok orbit =>
      dsimp only
      rw [h]
      dsimp only
      cases resolveAct net2 with
      | error e => exact ⟨e, rfl⟩
      | ok net2 =>
        dsimp only
        unfold buildTwo
        cases getNet mk net1 orbit.1 with
        | error e => exact ⟨e, rfl⟩
        | ok _ =>
          cases getNet mk net2 orbit.1 with
          | error e => exact ⟨e, rfl⟩
          | ok _ => exact ⟨_, rfl⟩

/-- C81, disagreement: in particular, a description in which both networks can be built and the symmetries exist raises
`TypeError` (unexpected keyword arguments `net1`, `net2`). -/
theorem c81_two_networks_error_violated (mk : NetDescr P → (n : ℕ) → Except PyErr (NetFun n)) (d : Descr P)
    (net2 : NetDescr P) (h : d.net2 = some net2) (L : ℕ) (hrot : d.rotation.present = false)
    (hact : KnownActFun d.net1.actFun) (hact2 : KnownActFun net2.actFun)
    (ht1 : d.net1.type ∈ netTypeNames) (ht2 : net2.type ∈ netTypeNames)
    (h1 : ∃ f, mk ⟨d.net1.type, functionsOf d.net1.actFun, d.net1.params⟩ L = .ok f)
    (h2 : ∃ f, mk ⟨net2.type, functionsOf net2.actFun, net2.params⟩ L = .ok f) :
    (initNetUtil mk d [L]).1 = .error .typeError := by
  have e1 := resolveAct_known d.net1 hact
  have e2 := resolveAct_known net2 hact2
  obtain ⟨f1, g1⟩ := h1
  obtain ⟨f2, g2⟩ := h2
  unfold initNetUtil
  rw [e1]
  dsimp only
  rw [initOrbit_1d _ L (by exact hrot)]
  dsimp only
  rw [h]
  dsimp only
  rw [e2]
  dsimp only
  unfold buildTwo getNet
  rw [if_pos ht1, if_pos ht2, g1, g2]
  rfl

/-- C81, disagreement: "rotation" in the description of a network on a chain raises `TypeError`, although
`get_orbit_1D` lists it among its choices. -/
theorem c81_rotation_violated (mk : NetDescr P → (n : ℕ) → Except PyErr (NetFun n)) (d : Descr P) (L : ℕ)
    (hact : KnownActFun d.net1.actFun) (h : d.rotation.present = true) :
    (initNetUtil mk d [L]).1 = .error .typeError := by
  have h1 := resolveAct_known d.net1 hact
  unfold initNetUtil initOrbit
  rw [h1]
  dsimp only
  rw [h]
  rfl

/-- C81: on lattices that are not square and in more than two dimensions an exception is raised. -/
theorem c81_other_lattices (mk : NetDescr P → (n : ℕ) → Except PyErr (NetFun n)) (d : Descr P)
    (dims : List ℕ) (h : dims.length = 0 ∨ 3 ≤ dims.length ∨ ∃ L M, dims = [L, M] ∧ 0 < L ∧ L ≠ M) :
    ∃ e, (initNetUtil mk d dims).1 = .error e := by
  unfold initNetUtil
  cases resolveAct d.net1 with
  | error e => exact ⟨e, rfl⟩
  | ok net1 =>
    dsimp only
    rcases h with h | h | ⟨L, M, rfl, hL, hLM⟩
    · rw [List.length_eq_zero_iff.mp h]
      exact ⟨_, rfl⟩
    · match dims, h with
      | _ :: _ :: _ :: _, _ => exact ⟨_, rfl⟩
    · unfold initOrbit
      dsimp only
      cases hn : d.net2 with
      | none =>
        dsimp only
        unfold buildOne
        dsimp only
        cases getNet mk net1 (L * L) with
        | error e => exact ⟨e, rfl⟩
        | ok net =>
          dsimp only
          cases d.batchSize with
          | none => exact ⟨_, rfl⟩
          | some b =>
            refine ⟨.typeError, ?_⟩
            dsimp only
            rw [if_neg]
            simp only [List.prod_cons, List.prod_nil, mul_one]
            intro h
            exact hLM (Nat.eq_of_mul_eq_mul_left hL h).symm
      | some net2 =>
        dsimp only
        cases resolveAct net2 with
        | error e => exact ⟨e, rfl⟩
        | ok net2 =>
          dsimp only
          unfold buildTwo
          cases getNet mk net1 (L * L) with
          | error e => exact ⟨e, rfl⟩
          | ok _ =>
            cases getNet mk net2 (L * L) with
            | error e => exact ⟨e, rfl⟩
            | ok _ => exact ⟨_, rfl⟩

/-- **C81**: for networks that do not generate samples and return complex numbers, the wave function is the
projection of the network onto the sector given by the factors: `ψ(s) = Σ_g χ(g) φ(g s)`, and it transforms with
the character `χ`, where `χ` takes the values given in the description (1 by default). -/
theorem c81_projection_1d_partial (mk : NetDescr P → (n : ℕ) → Except PyErr (NetFun n)) (d : Descr P) (L : ℕ)
    (hL : 0 < L) (f : (Fin L → ℤ) → ℂ) (hd : d.Describes mk L (.cpx f)) (hrot : d.rotation.present = false)
    (hgen : d.net1.type ≠ "RNN" ∧ d.net1.type ≠ "RNN2D")
    (χ : Matrix (Fin L) (Fin L) ℤ → ℂ) (hχ : IsCharacter (d.gens1D L) χ)
    (ht : d.translation.present = true → ∀ M, IsShift1D M → χ M = givenFactor d.translation.factor)
    (hr : d.reflection.present = true → ∀ M, IsReflection1D M → χ M = givenFactor d.reflection.factor)
    (hs : d.spinflip.present = true → ∀ M, IsSpinflip M → χ M = givenFactor d.spinflip.factor) :
    ∃ (d' : Descr P) (psi : (Fin L → ℤ) → LogVal), initNetUtil mk d [L] = (.ok ⟨L, fun s => .cpx (psi s)⟩, d') ∧
      (∀ h ∈ Submonoid.closure (d.gens1D L), ∀ s s', IsImage h s s' →
        χ h * (psi s').amp = (psi s).amp) ∧
      ∃ group, IsGroupList (d.gens1D L) group ∧ ∀ s, ∃ images : List (Fin L → ℤ),
        List.Forall₂ (fun g s' => IsImage g s s') group images ∧
        (psi s).amp = (List.zipWith (fun g s' => χ g * Complex.exp (f s')) group images).sum := by
  have : NeZero L := ⟨hL.ne'⟩
  rw [← fac_given] at ht hr hs
  obtain ⟨d', h1, _⟩ := initNetUtil_eq mk d [L] L _ _ hd (by simp) (initOrbit_1d d L hrot)
  have hg : generatorType d.net1.type = false := by
    unfold generatorType
    simp [hgen.1, hgen.2]
  refine ⟨d', symNet avgExp f (getOrbit1D L d.translation.present d.reflection.present d.spinflip.present
    d.translation.fac.val d.reflection.fac.val d.spinflip.fac.val).orbit
    (getOrbit1D L d.translation.present d.reflection.present d.spinflip.present
    d.translation.fac.val d.reflection.fac.val d.spinflip.fac.val).factor, ?_, ?_, ?_⟩
  · rw [h1, hg]
    rfl
  · intro h hh s s' hi
    exact c57_character_1d_partial L hL _ _ _ _ _ _ χ hχ ht hr hs f h hh s s' hi
  · have hG := group1D L d.translation.present d.reflection.present d.spinflip.present
      d.translation.fac.val d.reflection.fac.val d.spinflip.fac.val
    refine ⟨_, hG, fun s => ?_⟩
    obtain ⟨images, hi, ha⟩ := c57_sum L _ _ hG (getOrbit1D L d.translation.present d.reflection.present
      d.spinflip.present d.translation.fac.val d.reflection.fac.val d.spinflip.fac.val).factor f s
    refine ⟨images, hi, ?_⟩
    rw [ha, factor1D L _ _ _ d.translation.fac.val d.reflection.fac.val d.spinflip.fac.val χ hχ ht hr hs, List.zipWith_map_left]

/-- **C81**: networks that generate samples are symmetrised such that the Born probability is the mean of those of
the images, the distribution of their symmetrised samples. -/
theorem c81_generator_1d_partial (mk : NetDescr P → (n : ℕ) → Except PyErr (NetFun n)) (d : Descr P) (L : ℕ)
    (hL : 0 < L) (f : (Fin L → ℤ) → ℂ) (hd : d.Describes mk L (.cpx f)) (hrot : d.rotation.present = false)
    (hgen : d.net1.type = "RNN" ∨ d.net1.type = "RNN2D") :
    ∃ (d' : Descr P) (psi : (Fin L → ℤ) → ℂ), initNetUtil mk d [L] = (.ok ⟨L, fun s => .cpx (some (psi s))⟩, d') ∧
      ∃ group, IsGroupList (d.gens1D L) group ∧ ∀ s, ∃ images : List (Fin L → ℤ),
        List.Forall₂ (fun g s' => IsImage g s s') group images ∧
        ‖Complex.exp (psi s)‖ ^ 2 = (images.map fun s' => ‖Complex.exp (f s')‖ ^ 2).sum / group.length := by
  have : NeZero L := ⟨hL.ne'⟩
  obtain ⟨d', h1, _⟩ := initNetUtil_eq mk d [L] L _ _ hd (by simp) (initOrbit_1d d L hrot)
  have hg : generatorType d.net1.type = true := by
    unfold generatorType
    rcases hgen with h | h <;> simp [h]
  refine ⟨d', symNet avgSep f (getOrbit1D L d.translation.present d.reflection.present d.spinflip.present
    d.translation.fac.val d.reflection.fac.val d.spinflip.fac.val).orbit
    (getOrbit1D L d.translation.present d.reflection.present d.spinflip.present
    d.translation.fac.val d.reflection.fac.val d.spinflip.fac.val).factor, ?_, ?_⟩
  · rw [h1, hg]
    rfl
  · have hG := group1D L d.translation.present d.reflection.present d.spinflip.present
      d.translation.fac.val d.reflection.fac.val d.spinflip.fac.val
    refine ⟨_, hG, fun s => ?_⟩
    refine ⟨symImages (getOrbit1D L d.translation.present d.reflection.present d.spinflip.present
      d.translation.fac.val d.reflection.fac.val d.spinflip.fac.val).orbit s, ?_, ?_⟩
    · rw [symImages_eq, List.forall₂_map_right_iff, List.forall₂_same]
      intro g hgm
      exact imageOf_isImage (hG.signed g hgm) s
    · have hne : (getOrbit1D L d.translation.present d.reflection.present d.spinflip.present
          d.translation.fac.val d.reflection.fac.val d.spinflip.fac.val).orbit ≠ [] := by
        intro h0
        have := hG.one
        rw [h0] at this
        cases this
      unfold symNet
      rw [avgSep_norm _ _ (by
        rw [symImages_eq]
        simpa using hne)]
      rw [List.map_map, List.length_map]
      congr 1
      · congr 1
        apply List.map_congr_left
        intro s' _
        rw [Complex.norm_exp, ← Real.exp_nat_mul]
        simp only [Function.comp]
        congr 1
        push_cast
        ring
      · rw [symImages_eq, List.length_map]

/-- The symmetries and factors that are passed on, on a square lattice. -/
theorem initOrbit_2d (d : Descr P) (L : ℕ) :
    initOrbit d [L, L] = .ok ⟨L * L, getOrbit2D L d.translation.present d.reflection.present
      d.rotation.present d.spinflip.present d.translation.fac.val d.reflection.fac.val d.rotation.fac.val
      d.spinflip.fac.val⟩ := rfl

/-- **C81**, the projection on square lattices. -/
theorem c81_projection_2d_partial (mk : NetDescr P → (n : ℕ) → Except PyErr (NetFun n)) (d : Descr P) (L : ℕ)
    (hL : 0 < L) (f : (Fin (L * L) → ℤ) → ℂ) (hd : d.Describes mk (L * L) (.cpx f))
    (hgen : d.net1.type ≠ "RNN" ∧ d.net1.type ≠ "RNN2D")
    (χ : Matrix (Fin (L * L)) (Fin (L * L)) ℤ → ℂ) (hχ : IsCharacter (d.gens2D L) χ)
    (ht : d.translation.present = true → ∀ M, IsShiftRows M ∨ IsShiftCols M →
      χ M = givenFactor d.translation.factor)
    (hr : d.reflection.present = true → ∀ M, IsFlipRows M ∨ IsFlipCols M →
      χ M = givenFactor d.reflection.factor)
    (hq : d.rotation.present = true → ∀ M, IsRotation M → χ M = givenFactor d.rotation.factor)
    (hs : d.spinflip.present = true → ∀ M, IsSpinflip M → χ M = givenFactor d.spinflip.factor) :
    ∃ (d' : Descr P) (psi : (Fin (L * L) → ℤ) → LogVal),
      initNetUtil mk d [L, L] = (.ok ⟨L * L, fun s => .cpx (psi s)⟩, d') ∧
      (∀ h ∈ Submonoid.closure (d.gens2D L), ∀ s s', IsImage h s s' →
        χ h * (psi s').amp = (psi s).amp) ∧
      ∃ group, IsGroupList (d.gens2D L) group ∧ ∀ s, ∃ images : List (Fin (L * L) → ℤ),
        List.Forall₂ (fun g s' => IsImage g s s') group images ∧
        (psi s).amp = (List.zipWith (fun g s' => χ g * Complex.exp (f s')) group images).sum := by
  have : NeZero L := ⟨hL.ne'⟩
  rw [← fac_given] at ht hr hq hs
  obtain ⟨d', h1, _⟩ := initNetUtil_eq mk d [L, L] (L * L) _ _ hd (by simp) (initOrbit_2d d L)
  have hg : generatorType d.net1.type = false := by
    unfold generatorType
    simp [hgen.1, hgen.2]
  refine ⟨d', symNet avgExp f (getOrbit2D L d.translation.present d.reflection.present
      d.rotation.present d.spinflip.present d.translation.fac.val d.reflection.fac.val d.rotation.fac.val
      d.spinflip.fac.val).orbit (getOrbit2D L d.translation.present d.reflection.present
      d.rotation.present d.spinflip.present d.translation.fac.val d.reflection.fac.val d.rotation.fac.val
      d.spinflip.fac.val).factor, ?_, ?_, ?_⟩
  · rw [h1, hg]
    rfl
  · intro h hh s s' hi
    exact c57_character_2d_partial L hL _ _ _ _ _ _ _ _ χ hχ ht hr hq hs f h hh s s' hi
  · have hG := group2D L d.translation.present d.reflection.present d.rotation.present d.spinflip.present
      d.translation.fac.val d.reflection.fac.val d.rotation.fac.val d.spinflip.fac.val
    refine ⟨_, hG, fun s => ?_⟩
    obtain ⟨images, hi, ha⟩ := c57_sum (L * L) _ _ hG (getOrbit2D L d.translation.present d.reflection.present
      d.rotation.present d.spinflip.present d.translation.fac.val d.reflection.fac.val d.rotation.fac.val
      d.spinflip.fac.val).factor f s
    refine ⟨images, hi, ?_⟩
    rw [ha, factor2D L _ _ _ _ d.translation.fac.val d.reflection.fac.val d.rotation.fac.val d.spinflip.fac.val
      χ hχ ht hr hq hs, List.zipWith_map_left]

/-- A description: a feed-forward network on four sites, symmetric under translations and spin flips. -/
private def ffnDescr : Descr Unit where
  net1 := ⟨"FFN", some (.names ["elu", "tanh"]), ()⟩
  net2 := none
  translation := ⟨true, none⟩
  rotation := ⟨false, none⟩
  reflection := ⟨false, none⟩
  spinflip := ⟨true, none⟩
  batchSize := some 100

private theorem ffn_describes (n : ℕ) : ffnDescr.Describes (fun _ n => .ok (.real fun s => ∑ i : Fin n, (s i : ℝ) * i)) n
    (.real fun s => ∑ i : Fin n, (s i : ℝ) * i) where
  net2 := rfl
  type := by decide
  batch := ⟨100, rfl⟩
  act := by intro f hf; simp only [List.mem_cons, List.not_mem_nil, or_false] at hf; rcases hf with rfl | rfl <;> decide
  make := rfl

example : ∃ d' psi, initNetUtil (fun _ n => .ok (.real fun s => ∑ i : Fin n, (s i : ℝ) * i)) ffnDescr [4]
      = (.ok ⟨4, psi⟩, d') ∧
      ∀ h ∈ Submonoid.closure (ffnDescr.gens1D 4), ∀ s s', IsImage h s s' → psi s' = psi s :=
  c81_invariant_1d_partial _ ffnDescr 4 (by norm_num) _ (ffn_describes 4) rfl ⟨rfl, rfl, rfl, rfl⟩

example : ∃ d' psi, initNetUtil (fun _ n => .ok (.real fun s => ∑ i : Fin n, (s i : ℝ) * i)) ffnDescr [3, 3]
      = (.ok ⟨9, psi⟩, d') ∧
      ∀ h ∈ Submonoid.closure (ffnDescr.gens2D 3), ∀ s s', IsImage h s s' → psi s' = psi s :=
  c81_invariant_2d_partial _ ffnDescr 3 (by norm_num) _ (ffn_describes 9) ⟨rfl, rfl, rfl, rfl⟩

example : ∃ d' psi, initNetUtil (fun _ n => .ok (.real fun s => ∑ i : Fin n, (s i : ℝ) * i)) ffnDescr [4]
      = (.ok psi, d') ∧
      initNetUtil (fun _ n => .ok (.real fun s => ∑ i : Fin n, (s i : ℝ) * i)) d' [4] = (.error .keyError, d') :=
  c81_reuse_violated _ ffnDescr 4 _ (ffn_describes 4) rfl (by intro h; cases h)

/-- A description of a translation invariant complex RBM. -/
private def rbmDescr : Descr Unit where
  net1 := ⟨"CpxRBM", none, ()⟩
  net2 := none
  translation := ⟨true, none⟩
  rotation := ⟨false, none⟩
  reflection := ⟨false, none⟩
  spinflip := ⟨false, none⟩
  batchSize := some 100

/-- Two RBMs, for amplitude and phase. -/
example : (initNetUtil (fun _ n => .ok (.real fun s => ∑ i : Fin n, (s i : ℝ) * i))
    { rbmDescr with net2 := some ⟨"RBM", none, ()⟩ } [4]).1 = .error .typeError :=
  c81_two_networks_error_violated _ _ ⟨"RBM", none, ()⟩ rfl 4 rfl trivial trivial
    (by change "CpxRBM" ∈ _; decide) (by decide) ⟨_, rfl⟩ ⟨_, rfl⟩

/-- The hypotheses of `c81_projection_1d_partial` and `c81_generator_1d_partial` can be met. -/
example (f : (Fin 4 → ℤ) → ℂ) (mk : NetDescr Unit → (n : ℕ) → Except PyErr (NetFun n))
    (hmk : mk ⟨"CpxRBM", none, ()⟩ 4 = .ok (.cpx f)) :
    ∃ (d' : Descr Unit) (psi : (Fin 4 → ℤ) → LogVal), initNetUtil mk rbmDescr [4] = (.ok ⟨4, fun s => .cpx (psi s)⟩, d') ∧
      ∃ group, IsGroupList (rbmDescr.gens1D 4) group ∧ ∀ s, ∃ images : List (Fin 4 → ℤ),
        List.Forall₂ (fun g s' => IsImage g s s') group images ∧
        (psi s).amp = (List.zipWith (fun _ s' => 1 * Complex.exp (f s')) group images).sum := by
  obtain ⟨d', psi, h1, _, h2⟩ := c81_projection_1d_partial mk rbmDescr 4 (by norm_num) f
    ⟨rfl, by decide, ⟨100, rfl⟩, trivial, hmk⟩ rfl (by decide) (fun _ => 1) (trivial_character _)
    (fun _ _ _ => by simp [rbmDescr, givenFactor]) (fun h => by cases h) (fun h => by cases h)
  exact ⟨d', psi, h1, h2⟩

end JVMC
