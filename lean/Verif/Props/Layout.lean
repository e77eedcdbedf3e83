import Verif.Proof.Layout
import Verif.Spec.Demo

/-!
# Property C74: the tape of a function, entry by entry
-/

set_option linter.unusedSectionVars false

namespace Adv.Props
open Adv

variable {S : Type} [Flt S]

/-- C74: `Function::tape` returns exactly the tape that `Func.layoutTape` writes down, and panics exactly where the
latter is undefined. It does not depend on what happened before. -/
theorem C74_layout (f : Func S) (x : List S) (w : World S) (hw : w.nextId < usizeMax) :
    (f.tape x w).1.toOption = f.layoutTape x := Func.tape_layout f x w hw

/-- `x ↦ (2 x · x, 3, 2 / 2 - x)`: the literal `2` is written anew for each use, the quotient of two constants is not
written at all (its value is, where it is used), and the constant result `3` is written last. -/
def constF : Func ℚ := Func.advFn 1 3 fun _ =>
  .op .Mul (.lit 2) (some (.var 0)) fun a _ => .op .Mul (.var a) (some (.var 0)) fun b _ =>
  .op .Div (.lit 2) (some (.lit 2)) fun c _ => .op .Sub (.var c) (some (.var 0)) fun d _ => .ret [.var b, .lit 3, .var d]

example : Demo.w0.nextId < usizeMax ∧ constF.layoutTape [5] = some
    { indeps := [0]
      deps := [3, 6, 5]
      ops := [⟨.Const, 1, none, none⟩, ⟨.Mul, 2, some 1, some 0⟩, ⟨.Mul, 3, some 2, some 0⟩, ⟨.Const, 4, none, none⟩,
        ⟨.Sub, 5, some 4, some 0⟩, ⟨.Const, 6, none, none⟩]
      vals := [5, 2, 10, 50, 1, -4, 3], mutable := true } := ⟨Demo.hw0, by decide +kernel⟩

/-- C74: every entry of a tape is an input or the result of an operation on the tape. A tape has at most two operations
for each operation that was executed, and one for each result; without literals, it has exactly the operations that were
executed. -/
theorem C74_size (f : Func S) (x : List S) (w : World S) (hw : w.nextId < usizeMax) {t : Tape S}
    (h : (f.tape x w).1 = .ok t) :
    t.vals.length = x.length + t.ops.length ∧ t.ops.length ≤ 2 * f.steps x + t.deps.length ∧
    (f.AllVars → t.ops.length = f.steps x) := by
  refine Func.layoutTape_size (f := f) ?_
  rw [← Func.tape_layout f x w hw, h]
  rfl

/-- `x ↦ sin x · x`. -/
def sinMulF : Func ℚ := .chain [.simple 1 2 fun _ => .op .Sin (.var 0) none fun a _ => .ret [.var a, .var 0],
  .simple 2 1 fun _ => .op .Mul (.var 0) (some (.var 1)) fun a _ => .ret [.var a]]

example : (sinMulF.tape [5] Demo.w0).1.isOk = true ∧ sinMulF.AllVars ∧ sinMulF.steps [5] = 2 ∧
    (constF.tape [5] Demo.w0).1.isOk = true ∧ constF.steps [5] = 4 := by
  refine ⟨by decide +kernel, ?_, by decide +kernel, by decide +kernel, by decide +kernel⟩
  intro p hp xs
  simp only [sinMulF, Func.progs, Func.progsAll, List.append_nil, List.singleton_append, List.mem_cons, List.not_mem_nil,
    or_false] at hp
  rcases hp with rfl | rfl
  · exact ⟨⟨_, rfl⟩, by simp, fun i v => by simp [Prog.AllVars]⟩
  · exact ⟨⟨_, rfl⟩, by simp, fun i v => by simp [Prog.AllVars]⟩

end Adv.Props
