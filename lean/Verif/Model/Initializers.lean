import Mathlib.Data.List.Basic
import Verif.Model.Py

/-!
# Model of `init_fn_args` (`jVMC/nets/initializers.py:9-25`)

Strings are lists of characters. `D` is the type of dtypes, `F` the type of initialisers.
-/

namespace JVMC

/-- Python's `<` on strings: lexicographic order of code points (initializers.py:14). -/
def pyStrLt : List Char → List Char → Bool
  | _, [] => false
  | [], _ :: _ => true
  | a :: as, b :: bs => if a.toNat < b.toNat then true
      else if b.toNat < a.toNat then false else pyStrLt as bs

/-- The string `flax.__version__` of the release `major.minor.patch` (initializers.py:14). -/
def versionString (major minor patch : ℕ) : List Char :=
  Nat.toDigits 10 major ++ '.' :: (Nat.toDigits 10 minor ++ '.' :: Nat.toDigits 10 patch)

/-- A value among the keyword arguments returned by `init_fn_args`: a dtype, or an initialiser with
possibly bound keyword `dtype` (initializers.py:13, 15, 18, 22). -/
inductive InitVal (D F : Type) where
  | dtype (d : Option D)
  | init (f : F)
  | initPartial (f : F) (d : Option D)

/-- initializers.py:10-25, `init_fn_args`. -/
def initFnArgs {D F : Type} (version : List Char) (dtype : Option D)
    (kwargs : List (List Char × F)) : List (List Char × InitVal D F) :=
  let a := match dtype with
    | some d => [("dtype".toList, InitVal.dtype (some d))]
    | none => []
  if ¬ pyStrLt version "0.4.0".toList then
    a ++ [("param_dtype".toList, .dtype dtype)] ++
      (kwargs.filter fun k => "init".toList.isSuffixOf k.1).map fun k => (k.1, .init k.2)
  else
    a ++ (kwargs.filter fun k => "init".toList.isSuffixOf k.1).map
      fun k => (k.1, .initPartial k.2 dtype)

/-- How a flax layer constructed with these arguments creates a parameter: it calls
`initialiser(key, shape, param_dtype)` with three positional arguments; every initialiser names its
third parameter `dtype` (initializers.py:28, 34), so that an initialiser with bound keyword `dtype`
raises TypeError (multiple values for an argument). Without the argument `param_dtype` the layer
uses `defaultDtype`, without the initialiser `defaultInit`. Returns the initialiser that produces
the parameter and the dtype it is called with. -/
def createParam {D F : Type} (defaultDtype : D) (defaultInit : F)
    (args : List (List Char × InitVal D F)) (name : List Char) : Except PyErr (F × Option D) :=
  let pd := match args.lookup "param_dtype".toList with
    | some (.dtype d) => d
    | _ => some defaultDtype
  match args.lookup name with
  | some (.init f) => .ok (f, pd)
  | some (.initPartial _ _) => .error .typeError
  | _ => .ok (defaultInit, pd)

end JVMC
