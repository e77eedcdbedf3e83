import Verif.Spec.Cxx
import Verif.Spec.Scalars

/-!
# A concrete C++ client
-/

namespace Adv.DemoX

/-- Run commands, ignoring panics. -/
def runAll (cmds : List (CxxCmd ℚ)) : CxxState ℚ := cmds.foldl (fun s c => (c.exec s).2) CxxState.init

/-- `AContext ctx; ADouble x = ctx.new_independent(); ADouble y(3); ADouble z = x + y;` -/
def prog : List (CxxCmd ℚ) := [.cNew 0, .cIndep 0 0, .dValue 1 3, .dOp .add 2 0 1]

/-- The state afterwards. -/
def s : CxxState ℚ := runAll prog

/-- `ADouble x(5); ADouble y(2);` -/
def t : CxxState ℚ := runAll [.dValue 0 5, .dValue 1 2]

/-- A command that is valid and succeeds leads to a reachable state. -/
theorem step {s : CxxState ℚ} (h : s.Reachable) {cmd : CxxCmd ℚ} (hv : cmd.Valid s) (hself : ¬ cmd.SelfCopy)
    (e : (cmd.exec s).1 = .ok ()) : (cmd.exec s).2.Reachable :=
  .tail h (.run cmd hv hself (Prod.ext e rfl))

theorem reach_t : t.Reachable := by
  have h1 := step (.refl _) (cmd := .dValue 0 5) rfl (by exact id) rfl
  exact step h1 (cmd := .dValue 1 2) rfl (by exact id) rfl

theorem reach_s : s.Reachable := by
  have h1 := step (.refl _) (cmd := .cNew 0) ⟨rfl, by decide⟩ (by exact id) rfl
  have h2 := step h1 (cmd := .cIndep 0 0) ⟨rfl, 1, rfl⟩ (by exact id) rfl
  have h3 := step h2 (cmd := .dValue 1 3) rfl (by exact id) rfl
  exact step h3 (cmd := .dOp .add 2 0 1) ⟨rfl, by decide, by decide⟩ (by exact id) (by decide +kernel)

end Adv.DemoX
