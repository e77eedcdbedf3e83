import Lean.Elab.Tactic.Basic
import Lean.Meta.AppBuilder
import Lean.Structure

/-! `kernel_rfl` closes a goal `a = b` by reflexivity and leaves the check that both sides compute to
the same value to the kernel, as `decide +kernel` does for decidable propositions.  The elaborator's
own evaluator does not share subterms well enough to run a recording.  `kernel_eval` replaces the left
hand side of `a = b` by what it computes to, down to operations of the scalar type.  Nothing is trusted
here: a goal whose sides are not definitionally equal is rejected when the theorem is added. -/

open Lean Elab Tactic Meta in
/-- Reflexivity, checked by the kernel only. -/
elab "kernel_rfl" : tactic => do
  let g ← getMainGoal
  let some (_, a, _) := (← instantiateMVars (← g.getType)).eq? | throwError "kernel_rfl: not an equation"
  g.assign (← mkEqRefl a)
  replaceMainGoal []

namespace Adv.KernelEval
open Lean Meta

/-- Evaluate to constructors, scalar operations (fields of the class `cls`) and variables. -/
partial def norm (cls : Name) (e : Expr) : MetaM Expr := do
  if (← isType e) || (← isProof e) then return e
  let e' ← ofExceptKernelException (Kernel.whnf (← getEnv) (← getLCtx) e)
  let f := e'.getAppFn
  let args := e'.getAppArgs
  match f with
  | .const n _ =>
    match (← getEnv).find? n with
    | some (.ctorInfo c) =>
      let mut out := args
      for i in [c.numParams:args.size] do
        out := out.set! i (← norm cls args[i]!)
      return mkAppN f out
    | _ =>
      -- a condition on scalars: `Decidable.rec (fun _ => e) (fun _ => t) inst` is `if p then t else e`
      if n == ``Decidable.rec && args.size == 5 then
        let (.lam _ _ e _, .lam _ _ t _) := (args[2]!, args[3]!) | return e'
        let (e, t) := (e.headBeta, t.headBeta)
        if e.hasLooseBVars || t.hasLooseBVars then return e'
        mkAppOptM ``ite #[← inferType e', args[0]!, args[4]!, ← norm cls t, ← norm cls e]
      else return e'
  | .proj s i inst =>
    if s == cls then
      let ty ← whnf (← inferType inst)
      let fields := getStructureFields (← getEnv) cls
      let some fld := fields[i]? | return e'
      let head := mkAppN (.const (cls ++ fld) ty.getAppFn.constLevels!) (ty.getAppArgs.push inst)
      return mkAppN head (← args.mapM (norm cls))
    else return e'
  | .fvar _ => return mkAppN f (← args.mapM (norm cls))
  | _ => return e'

end Adv.KernelEval

open Lean Elab Tactic Meta in
/-- Evaluate the left hand side of an equation. `kernel_eval K` treats the instance `Flt K` as opaque. -/
elab "kernel_eval" K:(ppSpace colGt term)? : tactic => withMainContext do
  let g ← getMainGoal
  let some (α, a, b) := (← instantiateMVars (← g.getType)).eq? | throwError "kernel_eval: not an equation"
  let a' ← match K with
    | none => Adv.KernelEval.norm `Adv.Flt a
    | some K => do
      let T ← mkAppM `Adv.Flt #[← Term.elabType K]
      let inst ← synthInstance T
      let r ← withLocalDeclD `inst T fun x => do
        mkLambdaFVars #[x] (← Adv.KernelEval.norm `Adv.Flt (a.replace fun e => if e == inst then some x else none))
      pure (r.beta #[inst])
  let g' ← mkFreshExprSyntheticOpaqueMVar (← mkEq a' b)
  let u ← getLevel α
  -- `@Eq.trans α a a' b (Eq.refl a) g'`: the kernel checks that `a` and `a'` are the same
  g.assign (mkAppN (.const ``Eq.trans [u]) #[α, a, a', b, mkApp2 (.const ``Eq.refl [u]) α a, g'])
  replaceMainGoal [g'.mvarId!]
