import Verif.Proof.Eval
import Verif.Spec.Denote

/-! # Evaluation of user code computes its meaning -/

set_option linter.unusedSectionVars false

namespace Adv
open scoped Adv

variable {S : Type} [Flt S]

theorem Arg.getS_meaning (env : List (S × Unit)) (a : Arg S) :
    ((a.getS unitSh env).map Prod.fst).toOption = a.meaning (env.map Prod.fst) := by
  cases a with
  | var i =>
    simp only [Arg.getS, Arg.meaning, List.getElem?_map]
    cases env[i]? <;> rfl
  | lit v => rfl

theorem mapM_meaning (env : List (S × Unit)) (outs : List (Arg S)) :
    ((outs.mapM (Arg.getS unitSh env)).map (List.map Prod.fst)).toOption =
      outs.mapM (Arg.meaning (env.map Prod.fst)) := by
  induction outs with
  | nil => rfl
  | cons a outs ih =>
    have ha := Arg.getS_meaning env a
    rw [List.mapM_cons, List.mapM_cons, ← ha, ← ih]
    rcases a.getS unitSh env with e | x
    · rfl
    · rcases outs.mapM (Arg.getS unitSh env) with e | xs <;> rfl

theorem meaning_zfun (o : OpCode) (a : S) (b : Option S) :
    o.meaning a b = if arityOk o b then some (zfun o a (b.getD a)) else none := by
  cases o <;> cases b <;> rfl

theorem Prog.runS_meaning (p : Prog S) (env : List (S × Unit)) :
    ((p.runS unitSh env).map (List.map Prod.fst)).toOption = p.meaning (env.map Prod.fst) := by
  induction p generalizing env with
  | ret outs => exact mapM_meaning env outs
  | panic => rfl
  | op o a b k ih =>
    have ha := Arg.getS_meaning env a
    cases b with
    | none =>
      simp only [Prog.runS, Prog.meaning, ← ha, Arg.getSOpt]
      rcases a.getS unitSh env with e | x
      · rfl
      · simp only [bind_ok_eq, map_ok_eq, Except.toOption, Option.bind_eq_bind, Option.bind_some, meaning_zfun]
        have : arityOk o (none : Option (S × Unit)) = arityOk o (none : Option S) := rfl
        rw [this]
        by_cases h : arityOk o (none : Option S) = true
        · simp only [h, if_true, Option.bind_some, Option.getD_none]
          rw [show env.length = (env.map Prod.fst).length by simp]
          have := ih (env.map Prod.fst).length (zfun o x.1 x.1)
            (env ++ [(zfun o x.1 x.1, unitSh.op o x.1 x.1 x.2 x.2)])
          rw [List.map_append] at this
          exact this
        · simp only [h, Bool.false_eq_true, if_false]; rfl
    | some b =>
      have hb := Arg.getS_meaning env b
      simp only [Prog.runS, Prog.meaning, ← ha, ← hb, Arg.getSOpt]
      rcases a.getS unitSh env with e | x
      · rfl
      rcases b.getS unitSh env with e | y
      · rfl
      · simp only [bind_ok_eq, map_ok_eq, Except.toOption, Option.bind_eq_bind, Option.bind_some, meaning_zfun]
        have : arityOk o (some y) = arityOk o (some y.1) := rfl
        rw [this]
        by_cases h : arityOk o (some y.1) = true
        · simp only [h, if_true, Option.bind_some, Option.getD_some]
          rw [show env.length = (env.map Prod.fst).length by simp]
          have := ih (env.map Prod.fst).length (zfun o x.1 y.1)
            (env ++ [(zfun o x.1 y.1, unitSh.op o x.1 y.1 x.2 y.2)])
          rw [List.map_append] at this
          exact this
        · simp only [h, Bool.false_eq_true, if_false]; rfl

/-- Meaning of a list of bodies. -/
def meaningProgs : List (List S → Prog S) → List S → Option (List S)
  | [], x => some x
  | p :: ps, x => do meaningProgs ps (← (p x).meaning x)

theorem meaningProgs_append (ps qs : List (List S → Prog S)) (x : List S) :
    meaningProgs (ps ++ qs) x = (meaningProgs ps x).bind (meaningProgs qs) := by
  induction ps generalizing x with
  | nil => rfl
  | cons p ps ih =>
    simp only [List.cons_append, meaningProgs, Option.bind_eq_bind, ih, Option.bind_assoc]

mutual
theorem Func.meaning_progs : ∀ (f : Func S) (x : List S), f.meaning x = meaningProgs f.progs x
  | .simple _ _ f, x => by
      simp only [Func.meaning, Func.progs, meaningProgs]
      cases (f x).meaning x <;> rfl
  | .chain fs, x => by rw [Func.meaning, Func.progs]; exact Func.meaningAll_progs fs x
theorem Func.meaningAll_progs : ∀ (fs : List (Func S)) (x : List S),
    Func.meaningAll fs x = meaningProgs (Func.progsAll fs) x
  | [], x => rfl
  | f :: fs, x => by
      rw [Func.meaningAll, Func.progsAll, meaningProgs_append, Func.meaning_progs f]
      cases meaningProgs f.progs x with
      | none => rfl
      | some y => exact Func.meaningAll_progs fs y
end

theorem runProgsS_meaning (ps : List (List S → Prog S)) (x : List (S × Unit)) :
    ((runProgsS unitSh ps x).map (List.map Prod.fst)).toOption = meaningProgs ps (x.map Prod.fst) := by
  induction ps generalizing x with
  | nil => rfl
  | cons p ps ih =>
    have h := Prog.runS_meaning (p (x.map Prod.fst)) x
    simp only [runProgsS, meaningProgs, ← h]
    rcases (p (x.map Prod.fst)).runS unitSh x with e | y
    · rfl
    · exact ih y

theorem evalV_meaning (f : Func S) (x : List S) : (f.evalV x).toOption = f.meaning x := by
  have h := runProgsS_meaning f.progs (x.map fun v => (v, ()))
  rw [List.map_map] at h
  have hx : x.map (Prod.fst ∘ fun v => (v, ())) = x := by simp [Function.comp_def]
  rw [hx] at h
  rw [Func.meaning_progs, ← h]; rfl

end Adv
