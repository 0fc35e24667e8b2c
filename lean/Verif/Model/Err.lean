/-! Python exceptions as values. -/
namespace Verif

/-- The exceptions raised by the modelled code: pyactr's own `ACTRError` (utilities.py:118) and the Python built-ins that
escape from it. -/
inductive PyErr where
  | actr
  | unboundLocal
  | key
  | type
  | value
  | attribute
  | index
  | runtime
  | runtimeWarning
  | zeroDivision
  | notImplemented
  | interrupt
  | assertion
deriving DecidableEq, Repr

end Verif
