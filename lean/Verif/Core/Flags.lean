import Mathlib.Data.Nat.Bitwise

/-!
# Function flags (model of `folx/api.py:428-440`)
-/

namespace Folx

/-- `FunctionFlags` is an `IntFlag`; its members are the integers below (`api.py:429-440`). -/
abbrev Flags := ℕ

namespace Flags

/-- `FunctionFlags.GENERAL` (`api.py:429`). -/
def GENERAL : Flags := 0
/-- `FunctionFlags.LINEAR_IN_FIRST` (`api.py:430`). -/
def LINEAR_IN_FIRST : Flags := 1 <<< 0
/-- `FunctionFlags.LINEAR_IN_ONE` (`api.py:431`). -/
def LINEAR_IN_ONE : Flags := 1 <<< 1 ||| LINEAR_IN_FIRST
/-- `FunctionFlags.LINEAR` (`api.py:432`). -/
def LINEAR : Flags := 1 <<< 2 ||| LINEAR_IN_ONE
/-- `FunctionFlags.REDUCTION` (`api.py:433`). -/
def REDUCTION : Flags := 1 <<< 3
/-- `FunctionFlags.MULTIPLICATION` (`api.py:434`). -/
def MULTIPLICATION : Flags := 1 <<< 4 ||| LINEAR_IN_ONE
/-- `FunctionFlags.DOT_PRODUCT` (`api.py:435`). -/
def DOT_PRODUCT : Flags := 1 <<< 5 ||| REDUCTION ||| MULTIPLICATION
/-- `FunctionFlags.INDEXING` (`api.py:436`). -/
def INDEXING : Flags := 1 <<< 6 ||| LINEAR
/-- `FunctionFlags.SCATTER` (`api.py:437`). -/
def SCATTER : Flags := 1 <<< 7
/-- `FunctionFlags.JOIN_JVP` (`api.py:438`). -/
def JOIN_JVP : Flags := 1 <<< 8
/-- `FunctionFlags.SPARSE_JHJ` (`api.py:439`). -/
def SPARSE_JHJ : Flags := 1 <<< 9
/-- `FunctionFlags.SUMMATION` (`api.py:440`). -/
def SUMMATION : Flags := 1 <<< 10 ||| LINEAR ||| REDUCTION

/-- `a in flags` for `enum.IntFlag`: all bits of `a` are set in `flags`. -/
def has (flags a : Flags) : Bool := flags &&& a == a

end Flags

end Folx
