import Verif.Spec.Scalars
import Verif.Spec.History
import Verif.Spec.Tape
import Verif.Spec.Function

/-!
# Concrete instances

Small rational functions, worlds and histories used by the non-vacuity examples.
-/

namespace Adv.Demo

/-- `(x, y) ↦ (|x * y|, x + |x * y|)` -/
def absF : Func ℚ := Func.advFn 2 2 fun _ =>
  (.op .Mul (.var 0) (some (.var 1)) fun i _ =>
   .op .Abs (.var i) none fun j _ =>
   .op .Add (.var 0) (some (.var j)) fun k _ => .ret [.var j, .var k])

/-- `(x, y) ↦ (x * y, 3 - x * y / x)`, smooth for `x ≠ 0`. -/
def smoothF : Func ℚ := Func.advFn 2 2 fun _ =>
  (.op .Mul (.var 0) (some (.var 1)) fun i _ =>
   .op .Div (.var i) (some (.var 0)) fun j _ =>
   .op .Sub (.lit 3) (some (.var j)) fun k _ => .ret [.var i, .var k])

/-- `x ↦ x * x` where `x > 1`, otherwise `x`: control flow depends on the value of the input. -/
def branchF : Func ℚ := Func.advFn 1 1 fun xs =>
  if xs.headD 0 > 1 then .op .Mul (.var 0) (some (.var 0)) fun j _ => .ret [.var j] else .ret [.var 0]

/-- The initial world. -/
def w0 : World ℚ := (HState.init : HState ℚ).world

theorem hw0 : w0.nextId < usizeMax := by decide

/-- A context has been created. -/
def s1 : HState ℚ := ⟨(AContext.new w0).2, [1], []⟩
/-- A number exists. -/
def s2 : HState ℚ := ⟨s1.world, [1], [AFloat.new 2 0]⟩
/-- It was made an independent of context 1. -/
def s3 : HState ℚ := ⟨(AContext.setIndep ⟨1⟩ (AFloat.new 2 0) s2.world).2, [1],
  [⟨2, 0, some (1, 0)⟩, AFloat.new 2 0]⟩
/-- It was multiplied by a constant. -/
def s4 : HState ℚ := ⟨(AFloat.fromOp .Mul ⟨2, 0, some (1, 0)⟩ (some (AFloat.new 2 0)) s3.world).2, [1],
  [⟨4, 0, some (1, 2)⟩, ⟨2, 0, some (1, 0)⟩, AFloat.new 2 0]⟩
/-- The product was declared dependent. -/
def s5 : HState ℚ := ⟨(AContext.setDep ⟨1⟩ ⟨4, 0, some (1, 2)⟩ s4.world).2, [1], s4.vars⟩
/-- A second context was created. -/
def s6 : HState ℚ := ⟨(AContext.new s5.world).2, [2, 1], s5.vars⟩
/-- It has an independent as well. -/
def s7 : HState ℚ := ⟨(AContext.setIndep ⟨2⟩ (AFloat.new 2 0) s6.world).2, [2, 1],
  ⟨2, 0, some (2, 0)⟩ :: s6.vars⟩
/-- The first context was dropped. -/
def s8 : HState ℚ := ⟨(AContext.drop ⟨1⟩ s7.world).2, [2], s7.vars⟩

theorem r1 : s1.Reachable :=
  HSteps.tail (.refl _) (HStep.new (s := HState.init) (h := ⟨1⟩) (w' := s1.world) (by decide) rfl)
theorem r2 : s2.Reachable := HSteps.tail r1 (HStep.scalar (2 : ℚ) 0)
theorem r3 : s3.Reachable := HSteps.tail r2
  (HStep.setIndep (s := s2) (c := 1) (a := AFloat.new 2 0) (r := .ok ⟨2, 0, some (1, 0)⟩) (w' := s3.world)
    (by simp [s2]) (by simp [s2]) rfl)
theorem r4 : s4.Reachable := HSteps.tail r3
  (HStep.op (s := s3) (a := ⟨2, 0, some (1, 0)⟩) (b := some (AFloat.new 2 0)) (o := .Mul)
    (r := .ok ⟨4, 0, some (1, 2)⟩) (w' := s4.world)
    (by simp [s3]) (by rintro b' ⟨⟩; simp [s3]) rfl (by
      have : (AFloat.fromOp .Mul ⟨2, 0, some (1, 0)⟩ (some (AFloat.new 2 0)) s3.world).1 =
        .ok (⟨4, 0, some (1, 2)⟩ : AFloat ℚ) := by decide +kernel
      exact Prod.ext this rfl))
theorem r5 : s5.Reachable := HSteps.tail r4
  (HStep.setDep (s := s4) (c := 1) (a := ⟨4, 0, some (1, 2)⟩) (r := .ok ()) (w' := s5.world)
    (by simp [s4]) (by simp [s4]) rfl)
theorem r6 : s6.Reachable := HSteps.tail r5
  (HStep.new (s := s5) (h := ⟨2⟩) (w' := s6.world) (by decide) rfl)
theorem r7 : s7.Reachable := HSteps.tail r6
  (HStep.setIndep (s := s6) (c := 2) (a := AFloat.new 2 0) (r := .ok ⟨2, 0, some (2, 0)⟩) (w' := s7.world)
    (by simp [s6]) (by simp [s6, s5, s4]) rfl)
theorem r8 : s8.Reachable := HSteps.tail r7
  (HStep.drop (s := s7) (c := 1) (r := .ok ()) (w' := s8.world) (by simp [s7]) rfl)

end Adv.Demo
