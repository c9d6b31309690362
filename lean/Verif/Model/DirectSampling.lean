import Verif.Model.MCSampler
import Verif.Model.Pipeline
import Verif.Model.Rnn

/-!
# Direct sampling on all ranks

`MCSampler._get_samples_gen` (sampler.py:232-250) with `NQS.sample` (vqs.py:356-375): all samples are
drawn with different keys, hence independently.
-/

namespace JVMC

/-- A function of the outcome. (sampler.py:241-250) -/
def WDist.map {A B : Type} (f : A → B) (d : WDist A) : WDist B := List.map (fun e => (f e.1, e.2)) d

/-- `n` independent draws. (rnn1d_general.py:158-168: one key per sample) -/
noncomputable def WDist.many {A : Type} (d : WDist A) : ℕ → WDist (List A)
  | 0 => WDist.pure []
  | n + 1 => WDist.bind d fun a => WDist.map (a :: ·) (WDist.many d n)

/-- Independent draws from several distributions. (vqs.py:368-371: one key per device) -/
noncomputable def WDist.each {A : Type} : List (WDist A) → WDist (List A)
  | [] => WDist.pure []
  | d :: ds => WDist.bind d fun a => WDist.map (a :: ·) (WDist.each ds)

/-- sampler.py:232-250 `_get_samples_gen` on all ranks and devices: the distribution of the
configurations, `log ψ` and weights. `sample` is the distribution of one sample (with the random
symmetry operation). -/
noncomputable def genSampleWorld {S : Type} (commSize deviceCount numSamples multipleOf : ℕ)
    (sample : WDist S) (logPsi : S → ℂ) : Except PyErr (WDist (World (S × ℂ × ℝ))) := do
  let ranks ← (List.range commSize).mapM fun r => do
    let (ns, glob) ← getSamplesGenCounts commSize r deviceCount numSamples multipleOf
    return WDist.map (List.map (List.map fun s => (s, logPsi s, 1 / (glob : ℝ))))
      (WDist.each (ns.map (WDist.many sample)))
  return WDist.each ranks

/-- sampler.py:241-247 for a chain without symmetries: the local states as elements of `Fin d`. -/
def decodeChain (L d : ℕ) [NeZero d] (l : List ℤ) : Fin L → Fin d := fun i => Fin.ofNat d (l.getD i 0).toNat

end JVMC
