/-!
# Python exceptions as values

The model is a shallow embedding: a Python function that can raise becomes a function
into `Except PyErr`. Only the *class* of the exception is recorded, never its message.
-/

namespace JVMC

/-- The Python exception classes that can be raised by the modelled parts of jVMC.
`broadcastError` stands for the `TypeError` JAX raises on incompatible array shapes and
`unboundLocalError` also for its parent class `NameError`; `noReturn` is no exception, it stands for a
call that runs forever.
(raised e.g. in sampler.py:113, 129, vqs.py:194-195, mpi_wrapper.py:261) -/
inductive PyErr where
  | zeroDivisionError
  | typeError
  | indexError
  | valueError
  | runtimeError
  | unboundLocalError
  | attributeError
  | keyError
  | broadcastError
  | noReturn
  deriving DecidableEq, Repr

end JVMC
