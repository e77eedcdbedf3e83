import Verif.Model.Perceptron
import Verif.Proof.FloydWarshall
import Verif.Proof.Fresh

/-! # What the programs of the perceptron example compute -/

set_option linter.unusedSectionVars false

namespace Adv.Nn
open Adv.Fw (bin lit Val run_bin)
open scoped Adv

section any
variable {S A : Type} [Flt S] (sh : Shadow S A)

/-- `sigmoid`. -/
def sigS (p : S × A) : S × A := bin sh .Div (bin sh .Exp p p) (bin sh .Add (bin sh .Exp p p) (lit sh Flt.one))

/-- `x * u + y * v + b`. -/
def weighS (x u y v b : S × A) : S × A := bin sh .Add (bin sh .Add (bin sh .Mul x u) (bin sh .Mul y v)) b

/-- `multilayer_perceptron`. -/
def mlpS (P : Nat → S × A) (x y : S) : S × A :=
  sigS sh (weighS sh (sigS sh (weighS sh (lit sh x) (P 0) (lit sh y) (P 1) (P 4))) (P 6)
    (sigS sh (weighS sh (lit sh x) (P 2) (lit sh y) (P 3) (P 5))) (P 7) (P 8))

/-- One term of the error. -/
def termS (P : Nat → S × A) (x y e : S) : S × A :=
  bin sh .Mul (bin sh .Sub (mlpS sh P x y) (lit sh e)) (bin sh .Sub (mlpS sh P x y) (lit sh e))

/-- `xor_error`. -/
def errS (P : Nat → S × A) : S × A :=
  bin sh .Add (bin sh .Add (bin sh .Add (termS sh P Flt.zero Flt.zero Flt.zero) (termS sh P Flt.zero Flt.one Flt.one))
    (termS sh P Flt.one Flt.zero Flt.one)) (termS sh P Flt.one Flt.one Flt.zero)

variable {sh}

theorem run_un {o : OpCode} (ho : o.isUnary = true) {env : List (S × A)} {a : Arg S} {p : S × A} (ha : Val sh env a p)
    (k : Nat → S → Prog S) :
    (Prog.op o a none k).runS sh env = (k env.length (bin sh o p p).1).runS sh (env ++ [bin sh o p p]) := by
  have ha' : a.getS sh env = .ok p := ha
  rw [Prog.runS, ha', bind_ok_eq, Arg.getSOpt]
  simp only [bind_ok_eq, arityOk, ho, if_true, Option.getD_none]
  rfl

theorem run_last (env ext : List (S × A)) (p : S × A) (c : Arg S → Prog S) :
    ∃ ext' r, (c (.var (env ++ ext).length)).runS sh (env ++ ext ++ [p]) = (c r).runS sh (env ++ ext') ∧
      Val sh (env ++ ext') r p :=
  ⟨ext ++ [p], .var (env ++ ext).length, by rw [List.append_assoc], by rw [← List.append_assoc]; exact Val.new _ _⟩

theorem run_sigmoid {env : List (S × A)} {a : Arg S} {p : S × A} (ha : Val sh env a p) (c : Arg S → Prog S) :
    ∃ ext r, (sigmoid a c).runS sh env = (c r).runS sh (env ++ ext) ∧ Val sh (env ++ ext) r (sigS sh p) := by
  unfold sigmoid
  rw [run_un rfl ha, run_bin rfl (Val.new _ _) (Val.lit sh _ _), run_bin rfl ((Val.new env _).append _) (Val.new _ _)]
  have := run_last (sh := sh) env ([bin sh .Exp p p] ++ [bin sh .Add (bin sh .Exp p p) (lit sh Flt.one)]) (sigS sh p) c
  simp only [← List.append_assoc] at this
  exact this

theorem run_weigh {env : List (S × A)} {x u y v b : Arg S} {x' u' y' v' b' : S × A} (hx : Val sh env x x')
    (hu : Val sh env u u') (hy : Val sh env y y') (hv : Val sh env v v') (hb : Val sh env b b') (c : Arg S → Prog S) :
    ∃ ext r, (weigh x u y v b c).runS sh env = (c r).runS sh (env ++ ext) ∧
      Val sh (env ++ ext) r (weighS sh x' u' y' v' b') := by
  unfold weigh
  rw [run_bin rfl hx hu, run_bin rfl (hy.append _) (hv.append _), run_bin rfl ((Val.new env _).append _) (Val.new _ _),
    run_bin rfl (Val.new _ _) (((hb.append _).append _).append _)]
  have := run_last (sh := sh) env ([bin sh .Mul x' u'] ++ [bin sh .Mul y' v'] ++
    [bin sh .Add (bin sh .Mul x' u') (bin sh .Mul y' v')]) (weighS sh x' u' y' v' b') c
  simp only [← List.append_assoc] at this
  exact this

/-- The operands denote the parameters. -/
def Pars (sh : Shadow S A) (env : List (S × A)) (P : Nat → Arg S) (x : Nat → S × A) : Prop := ∀ i < 9, Val sh env (P i) (x i)

theorem Pars.append {env : List (S × A)} {P : Nat → Arg S} {x : Nat → S × A} (h : Pars sh env P x) (ext : List (S × A)) :
    Pars sh (env ++ ext) P x := fun i hi => (h i hi).append ext

theorem run_mlp {env : List (S × A)} {P : Nat → Arg S} {X : Nat → S × A} (h : Pars sh env P X) (x y : S)
    (c : Arg S → Prog S) :
    ∃ ext r, (mlp P x y c).runS sh env = (c r).runS sh (env ++ ext) ∧ Val sh (env ++ ext) r (mlpS sh X x y) := by
  unfold mlp
  obtain ⟨e1, r1, h1, v1⟩ := run_weigh (Val.lit sh env x) (h 0 (by omega)) (Val.lit sh env y) (h 1 (by omega)) (h 4 (by omega))
    fun a => sigmoid a fun h1 =>
      weigh (.lit x) (P 2) (.lit y) (P 3) (P 5) fun b => sigmoid b fun h2 => weigh h1 (P 6) h2 (P 7) (P 8) fun o => sigmoid o c
  obtain ⟨e2, r2, h2, v2⟩ := run_sigmoid v1 fun h1 =>
      weigh (.lit x) (P 2) (.lit y) (P 3) (P 5) fun b => sigmoid b fun h2 => weigh h1 (P 6) h2 (P 7) (P 8) fun o => sigmoid o c
  have h := (h.append e1).append e2
  obtain ⟨e3, r3, h3, v3⟩ := run_weigh (Val.lit sh _ x) (h 2 (by omega)) (Val.lit sh _ y) (h 3 (by omega)) (h 5 (by omega))
    fun b => sigmoid b fun h2 => weigh r2 (P 6) h2 (P 7) (P 8) fun o => sigmoid o c
  obtain ⟨e4, r4, h4, v4⟩ := run_sigmoid v3 fun h2 => weigh r2 (P 6) h2 (P 7) (P 8) fun o => sigmoid o c
  have h := (h.append e3).append e4
  obtain ⟨e5, r5, h5, v5⟩ := run_weigh ((v2.append e3).append e4) (h 6 (by omega)) v4 (h 7 (by omega)) (h 8 (by omega))
    fun o => sigmoid o c
  obtain ⟨e6, r6, h6, v6⟩ := run_sigmoid v5 c
  refine ⟨e1 ++ (e2 ++ (e3 ++ (e4 ++ (e5 ++ e6)))), r6, ?_, ?_⟩
  · rw [h1, h2, h3, h4, h5, h6]
    simp only [List.append_assoc]
  · simp only [← List.append_assoc]
    exact v6

theorem run_term {env : List (S × A)} {P : Nat → Arg S} {X : Nat → S × A} (h : Pars sh env P X) (x y e : S)
    (c : Arg S → Prog S) :
    ∃ ext r, (term P x y e c).runS sh env = (c r).runS sh (env ++ ext) ∧ Val sh (env ++ ext) r (termS sh X x y e) := by
  unfold term
  obtain ⟨e1, r1, h1, v1⟩ := run_mlp h x y fun actual => .op .Sub actual (some (.lit e)) fun d _ =>
    .op .Sub actual (some (.lit e)) fun d' _ => .op .Mul (.var d) (some (.var d')) fun r _ => c (.var r)
  rw [h1, run_bin rfl v1 (Val.lit sh _ _), run_bin rfl (v1.append _) (Val.lit sh _ _),
    run_bin rfl ((Val.new _ _).append _) (Val.new _ _)]
  have := run_last (sh := sh) env (e1 ++ [bin sh .Sub (mlpS sh X x y) (lit sh e)] ++
    [bin sh .Sub (mlpS sh X x y) (lit sh e)]) (termS sh X x y e) c
  simp only [← List.append_assoc] at this
  exact this

theorem run_xorError {env : List (S × A)} {P : Nat → Arg S} {X : Nat → S × A} (h : Pars sh env P X) (c : Arg S → Prog S) :
    ∃ ext r, (xorError P c).runS sh env = (c r).runS sh (env ++ ext) ∧ Val sh (env ++ ext) r (errS sh X) := by
  unfold xorError
  obtain ⟨e1, r1, h1, v1⟩ := run_term h Flt.zero Flt.zero Flt.zero fun e1 => term P Flt.zero Flt.one Flt.one fun e2 =>
    term P Flt.one Flt.zero Flt.one fun e3 => term P Flt.one Flt.one Flt.zero fun e4 =>
    .op .Add e1 (some e2) fun s _ => .op .Add (.var s) (some e3) fun s' _ => .op .Add (.var s') (some e4) fun r _ => c (.var r)
  obtain ⟨e2, r2, h2, v2⟩ := run_term (h.append e1) Flt.zero Flt.one Flt.one fun e2 =>
    term P Flt.one Flt.zero Flt.one fun e3 => term P Flt.one Flt.one Flt.zero fun e4 =>
    .op .Add r1 (some e2) fun s _ => .op .Add (.var s) (some e3) fun s' _ => .op .Add (.var s') (some e4) fun r _ => c (.var r)
  obtain ⟨e3, r3, h3, v3⟩ := run_term ((h.append e1).append e2) Flt.one Flt.zero Flt.one fun e3 =>
    term P Flt.one Flt.one Flt.zero fun e4 =>
    .op .Add r1 (some r2) fun s _ => .op .Add (.var s) (some e3) fun s' _ => .op .Add (.var s') (some e4) fun r _ => c (.var r)
  obtain ⟨e4, r4, h4, v4⟩ := run_term (((h.append e1).append e2).append e3) Flt.one Flt.one Flt.zero fun e4 =>
    .op .Add r1 (some r2) fun s _ => .op .Add (.var s) (some r3) fun s' _ => .op .Add (.var s') (some e4) fun r _ => c (.var r)
  rw [h1, h2, h3, h4, run_bin rfl (((v1.append _).append _).append _) ((v2.append _).append _),
    run_bin rfl (Val.new _ _) ((v3.append _).append _), run_bin rfl (Val.new _ _) ((v4.append _).append _)]
  set T1 := termS sh X Flt.zero Flt.zero Flt.zero
  set T2 := termS sh X Flt.zero Flt.one Flt.one
  set T3 := termS sh X Flt.one Flt.zero Flt.one
  have := run_last (sh := sh) env (e1 ++ e2 ++ e3 ++ e4 ++ [bin sh .Add T1 T2] ++ [bin sh .Add (bin sh .Add T1 T2) T3])
    (errS sh X) c
  simp only [← List.append_assoc] at this
  exact this

theorem pars_range (x : Nat → S × A) : Pars sh ((List.range 9).map x) .var x := by
  intro i hi
  simp [Val, Arg.getS, hi]

theorem func_eval (x : Nat → S × A) : func.evalS sh ((List.range 9).map x) = .ok [errS sh x] := by
  obtain ⟨e, r, h1, h2⟩ := run_xorError (pars_range (sh := sh) x) fun r => .ret [r]
  show runProgsS sh [_] _ = _
  rw [runProgsS, h1, Prog.runS]
  have h2' : r.getS sh _ = _ := h2
  simp only [List.mapM_cons, List.mapM_nil, h2', bind_ok_eq]
  rfl

theorem network_eval (a b : S) (x : Nat → S × A) : (network a b).evalS sh ((List.range 9).map x) = .ok [mlpS sh x a b] := by
  obtain ⟨e, r, h1, h2⟩ := run_mlp (pars_range (sh := sh) x) a b fun r => .ret [r]
  show runProgsS sh [_] _ = _
  rw [runProgsS, h1, Prog.runS]
  have h2' : r.getS sh _ = _ := h2
  simp only [List.mapM_cons, List.mapM_nil, h2', bind_ok_eq]
  rfl

/-! ## Straight-line programs without abs -/

theorem sigmoid_straight (a : Arg S) {c : Arg S → Prog S} (h : ∀ r, (c r).StraightLine) : (sigmoid a c).StraightLine :=
  ⟨fun _ _ _ => rfl, fun _ _ => ⟨fun _ _ _ => rfl, fun _ _ => ⟨fun _ _ _ => rfl, fun _ _ => h _⟩⟩⟩

theorem weigh_straight (x u y v b : Arg S) {c : Arg S → Prog S} (h : ∀ r, (c r).StraightLine) :
    (weigh x u y v b c).StraightLine :=
  ⟨fun _ _ _ => rfl, fun _ _ => ⟨fun _ _ _ => rfl, fun _ _ => ⟨fun _ _ _ => rfl, fun _ _ =>
    ⟨fun _ _ _ => rfl, fun _ _ => h _⟩⟩⟩⟩

theorem mlp_straight (P : Nat → Arg S) (x y : S) {c : Arg S → Prog S} (h : ∀ r, (c r).StraightLine) :
    (mlp P x y c).StraightLine :=
  weigh_straight _ _ _ _ _ fun _ => sigmoid_straight _ fun _ => weigh_straight _ _ _ _ _ fun _ => sigmoid_straight _ fun _ =>
    weigh_straight _ _ _ _ _ fun _ => sigmoid_straight _ h

theorem term_straight (P : Nat → Arg S) (x y e : S) {c : Arg S → Prog S} (h : ∀ r, (c r).StraightLine) :
    (term P x y e c).StraightLine :=
  mlp_straight _ _ _ fun _ => ⟨fun _ _ _ => rfl, fun _ _ => ⟨fun _ _ _ => rfl, fun _ _ => ⟨fun _ _ _ => rfl, fun _ _ => h _⟩⟩⟩

theorem func_straight : (func : Func S).StraightLine := by
  intro p hp
  obtain rfl : p = _ := List.mem_singleton.mp hp
  refine ⟨fun _ => ?_, fun _ _ _ => rfl⟩
  exact term_straight _ _ _ _ fun _ => term_straight _ _ _ _ fun _ => term_straight _ _ _ _ fun _ =>
    term_straight _ _ _ _ fun _ => ⟨fun _ _ _ => rfl, fun _ _ => ⟨fun _ _ _ => rfl, fun _ _ => ⟨fun _ _ _ => rfl, fun _ _ => trivial⟩⟩⟩

theorem sigmoid_ops (a : Arg S) {c : Arg S → Prog S} (h : ∀ r, (c r).Ops (· ≠ .Abs)) : (sigmoid a c).Ops (· ≠ .Abs) :=
  ⟨by decide, fun _ _ => ⟨by decide, fun _ _ => ⟨by decide, fun _ _ => h _⟩⟩⟩

theorem weigh_ops (x u y v b : Arg S) {c : Arg S → Prog S} (h : ∀ r, (c r).Ops (· ≠ .Abs)) :
    (weigh x u y v b c).Ops (· ≠ .Abs) :=
  ⟨by decide, fun _ _ => ⟨by decide, fun _ _ => ⟨by decide, fun _ _ => ⟨by decide, fun _ _ => h _⟩⟩⟩⟩

theorem mlp_ops (P : Nat → Arg S) (x y : S) {c : Arg S → Prog S} (h : ∀ r, (c r).Ops (· ≠ .Abs)) :
    (mlp P x y c).Ops (· ≠ .Abs) :=
  weigh_ops _ _ _ _ _ fun _ => sigmoid_ops _ fun _ => weigh_ops _ _ _ _ _ fun _ => sigmoid_ops _ fun _ =>
    weigh_ops _ _ _ _ _ fun _ => sigmoid_ops _ h

theorem term_ops (P : Nat → Arg S) (x y e : S) {c : Arg S → Prog S} (h : ∀ r, (c r).Ops (· ≠ .Abs)) :
    (term P x y e c).Ops (· ≠ .Abs) :=
  mlp_ops _ _ _ fun _ => ⟨by decide, fun _ _ => ⟨by decide, fun _ _ => ⟨by decide, fun _ _ => h _⟩⟩⟩

theorem func_ops : (xorError .var fun r => .ret [r] : Prog S).Ops (· ≠ .Abs) :=
  term_ops _ _ _ _ fun _ => term_ops _ _ _ _ fun _ => term_ops _ _ _ _ fun _ => term_ops _ _ _ _ fun _ =>
    ⟨by decide, fun _ _ => ⟨by decide, fun _ _ => ⟨by decide, fun _ _ => trivial⟩⟩⟩

end any
end Adv.Nn
