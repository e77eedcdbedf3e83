import Verif.Model.Cxx
import Verif.Spec.Scalars

/-!
# The tests of the C++ interface on the model

`tests/cxx/AContextTests.cpp` and `tests/cxx/ADoubleTests.cpp` only check that the calls return. An unnamed temporary is
destroyed at the end of its statement, local variables at the end of the test in reverse order. The tests of
`adv::min` and `adv::max` for two `double`s (ADoubleTests.cpp:47-54) do not touch the library. Besides returning, every
test leaves no allocation behind.
-/

namespace Adv.Conformance
open Adv

/-- Run the commands of a test; the second component says whether everything that was allocated has been freed. -/
def runCxx (cmds : List (CxxCmd ℚ)) : Res Bool :=
  match (cmds.foldlM (fun _ c => c.exec) () : M (CxxState ℚ) Unit) CxxState.init with
  | (.error e, _) => .error e
  | (.ok _, s) => .ok ((List.range s.next).all fun p => match s.heap p with
      | .freed => true
      | _ => false)

/-- AContextTests.cpp:4-7 `init`. -/
example : runCxx [.cNew 0, .cDestroy 0] = .ok true := by decide +kernel

/-- AContextTests.cpp:9-14 `get_doubles`. -/
example : runCxx [.cNew 0, .cIndep 0 0, .cDep 0 0, .dDestroy 0, .cDestroy 0] = .ok true := by decide +kernel

/-- AContextTests.cpp:16-22 `record_simple_tape`. -/
example : runCxx [.cNew 0, .cIndep 0 0, .dOp .mul 1 0 0, .cDep 0 1, .dDestroy 1, .dDestroy 0, .cDestroy 0] =
    .ok true := by decide +kernel

/-- One statement `a ∘ b;`, `a ∘ 1.0;` or `1.0 ∘ a;`: the temporary `9` is destroyed at the end. -/
def arith (o : AFloat.ArithOp) : List (CxxCmd ℚ) := [.dOp o 9 0 1, .dDestroy 9, .dMixed o 9 8 1 0, .dDestroy 9]

/-- ADoubleTests.cpp:4-24 `arithmetic_ops`. -/
example : runCxx ([.cNew 0, .cIndep 0 0, .cIndep 1 0] ++ arith .add ++ arith .sub ++ arith .mul ++ arith .div ++
    [.dDestroy 1, .dDestroy 0, .cDestroy 0]) = .ok true := by decide +kernel

/-- ADoubleTests.cpp:26-37 `unary_functions`. -/
example : runCxx ([.cNew 0, .cIndep 0 0] ++
    ([.sin, .cos, .tan, .abs, .exp, .ln] : List Cxx.Unary).flatMap (fun u => [.dUnary u 9 0, .dDestroy 9]) ++
    [.dDestroy 0, .cDestroy 0]) = .ok true := by decide +kernel

/-- One call of `adv::min` or `adv::max` with two `ADouble`s, and one with a `double` converted to `ADouble`. -/
def binary (f : Cxx.Binary) : List (CxxCmd ℚ) :=
  [.dBinary f 9 0 1, .dDestroy 9, .dValue 8 1, .dBinary f 9 0 8, .dDestroy 9, .dDestroy 8,
    .dValue 8 1, .dBinary f 9 8 0, .dDestroy 9, .dDestroy 8]

/-- ADoubleTests.cpp:39-56 `binary_functions`. -/
example : runCxx ([.cNew 0, .cIndep 0 0, .cIndep 1 0] ++ binary .min ++ binary .max ++
    [.dDestroy 1, .dDestroy 0, .cDestroy 0]) = .ok true := by decide +kernel

/-- A test that forgets a destructor leaves an allocation behind. -/
example : runCxx [.cNew 0, .cIndep 0 0, .cDestroy 0] = .ok false := by decide +kernel

end Adv.Conformance
