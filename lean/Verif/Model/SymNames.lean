import Verif.Model.NetBuild

/-!
# Model of how symmetries are selected by name: the arguments of `get_orbit_1D`, `get_orbit_2D_square` and the
keys of a description for `init_net`

`jVMC/util/symmetries.py:114-143, 191-219` and `jVMC/util/util.py:52-64`.
-/

namespace JVMC

/-- The keyword arguments `**kw` of a call. (symmetries.py:114, 191) -/
abbrev KwFactors := List (String × ℂ)

/-- The value of a keyword argument with default `1.`. (symmetries.py:114, 191) -/
noncomputable def kwFactor (kw : KwFactors) (name : String) : ℂ := (kw.lookup name).getD 1

/-- `get_orbit_1D(L, *args, **kw)`: an unknown keyword raises `TypeError`; of the names, the code only asks whether
the three ones it knows are there. (symmetries.py:191-219) -/
noncomputable def orbit1DCall (L : ℕ) (args : List String) (kw : KwFactors) : Except PyErr (LatticeSymmetry L) :=
  if kw.all fun e => e.1 ∈ ["translation_factor", "reflection_factor", "spinflip_factor"] then
    .ok (getOrbit1D L (args.contains "translation") (args.contains "reflection") (args.contains "spinflip")
      (kwFactor kw "translation_factor") (kwFactor kw "reflection_factor") (kwFactor kw "spinflip_factor"))
  else .error .typeError

/-- `get_orbit_2D_square(L, *args, **kw)`. (symmetries.py:114-143) -/
noncomputable def orbit2DCall (L : ℕ) (args : List String) (kw : KwFactors) :
    Except PyErr (LatticeSymmetry (L * L)) :=
  if kw.all fun e => e.1 ∈ ["translation_factor", "reflection_factor", "rotation_factor", "spinflip_factor"] then
    .ok (getOrbit2D L (args.contains "translation") (args.contains "reflection") (args.contains "rotation")
      (args.contains "spinflip") (kwFactor kw "translation_factor") (kwFactor kw "reflection_factor")
      (kwFactor kw "rotation_factor") (kwFactor kw "spinflip_factor"))
  else .error .typeError

/-- A value in the description: `True`, `False` or a number. (util.py:53-59) -/
inductive DescrVal where
  | flag (b : Bool)
  | number (f : SymFactor)

/-- The value used as a factor; Python calculates with `True` and `False` as one and zero. (util.py:59) -/
noncomputable def DescrVal.asFactor : DescrVal → SymFactor
  | .flag b => .real (if b then 1 else 0)
  | .number f => f

/-- util.py:53-59 for one symmetry: `key in descr`, and `descr[key + "_factor"]` if that is there. -/
noncomputable def descrSymmetry (entries : List (String × DescrVal)) (key : String) : SymDescr where
  present := (entries.lookup key).isSome
  factor := (entries.lookup (key ++ "_factor")).map DescrVal.asFactor

/-- The dictionary `descr`, given by the descriptions of its networks, the batch size and the other entries.
(util.py:49-84) -/
noncomputable def descrOf {P : Type} (net1 : NetDescr P) (net2 : Option (NetDescr P)) (batchSize : Option ℕ)
    (entries : List (String × DescrVal)) : Descr P where
  net1 := net1
  net2 := net2
  translation := descrSymmetry entries "translation"
  rotation := descrSymmetry entries "rotation"
  reflection := descrSymmetry entries "reflection"
  spinflip := descrSymmetry entries "spinflip"
  batchSize := batchSize

/-! ## Nested dictionaries -/

/-- An entry of the dictionary `descr`: a value, the batch size, or the dictionary of a network with its type and
parameters and further entries. (util.py:45-84) -/
inductive DictEntry (P : Type) where
  | value (v : DescrVal)
  | batch (size : ℕ)
  | net (net : NetDescr P) (others : List (String × DescrVal))

/-- `descr[key]["type"]`, `descr[key]["parameters"]`: all that `get_net` uses. Other entries than dictionaries
cannot be subscripted. (util.py:45-50) -/
def readNet {P : Type} : DictEntry P → Except PyErr (NetDescr P)
  | .net net _ => .ok net
  | _ => .error .typeError

/-- util.py:53-59 for one symmetry: the keys of `descr` itself. -/
noncomputable def readSymmetry {P : Type} (d : List (String × DictEntry P)) (key : String) : SymDescr where
  present := (d.lookup key).isSome
  factor := match d.lookup (key ++ "_factor") with
    | some (.value v) => some v.asFactor
    | _ => none

/-- What `init_net` reads from the dictionary `descr`. Simplified: exceptions are raised at once. (util.py:49-84) -/
noncomputable def readDescr {P : Type} (d : List (String × DictEntry P)) : Except PyErr (Descr P) := do
  let net1 ← match d.lookup "net1" with
    | none => .error .keyError
    | some e => readNet e
  let net2 ← match d.lookup "net2" with
    | none => .ok none
    | some e => (readNet e).map some
  return {
    net1 := net1
    net2 := net2
    translation := readSymmetry d "translation"
    rotation := readSymmetry d "rotation"
    reflection := readSymmetry d "reflection"
    spinflip := readSymmetry d "spinflip"
    batchSize := match d.lookup "batch_size" with
      | some (.batch b) => some b
      | _ => none }

end JVMC
