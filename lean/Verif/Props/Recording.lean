import Verif.Proof.Eval
import Verif.Spec.Demo

/-!
# Recording, replay and sweeps: C02, C03, C04, C05, C06, C07, C53
-/

set_option linter.unusedSectionVars false

namespace Adv.Props
open Adv

variable {S : Type} [Flt S]

/-! ## C02 -/

/-- C02: whatever derivative seeds the inputs carry, the values of the results are those of
`eval_float`. -/
theorem C02_seeds_do_not_change_values (f : Func S) (x : List (S × S)) (w : World S) :
    (f.eval (x.map fun p => AFloat.new p.1 p.2) w).1.map (List.map AFloat.v) =
      (f.evalFloat (x.map Prod.fst) w).1 := by
  rw [Func.eval_new, Func.evalFloat_eq, ← Func.evalD_fst]
  rcases f.evalD x with e | ys
  · rfl
  · simp only [map_ok_eq, List.map_map]; rfl

example : (Demo.branchF.eval [AFloat.new 2 5] Demo.w0).1.map (List.map AFloat.v) = .ok [4] := by
  decide +kernel

/-- C02: on variables of one context, recording changes neither values, nor derivatives, nor whether
the evaluation panics. -/
theorem C02_recording_does_not_change_results {s : HState S} (hr : s.Reachable) (f : Func S)
    (env : List (AFloat S)) (henv : ∀ a ∈ env, a ∈ s.vars) {c : Nat}
    (hctx : ∀ a ∈ env, ∀ d vid, a.ctx = some (d, vid) → d = c)
    (hp : ∀ cell, s.world.cells c = some cell → cell.inner.poisoned = false) :
    (f.eval env s.world).1.map (List.map AFloat.strip) = (f.eval (env.map AFloat.strip) s.world).1 := by
  have hi := hr.inv
  rcases hc : s.world.cells c with _ | ⟨n, i⟩
  · obtain ⟨r, h1, h2⟩ := runProgs_dead f.progs env s.world hc (fun a ha => hctx a ha)
    rw [Func.eval_strip, Func.eval_eq, h1]
    unfold Func.evalD Func.evalS
    rw [h2]
    rcases r with e | y
    · rfl
    · simp only [map_ok_eq, AFloat.strip_of_dual]
  · obtain ⟨-, h2, -, -, h5⟩ := hi.alive c _ hc
    refine (Func.eval_live_strip f hc h5 (hp _ hc) h2 ?_).1
    intro a ha d vid hd
    have := hctx a ha d vid hd
    subst this
    have := (hi.vars a (henv a ha) d vid hd).2 _ hc
    exact ⟨rfl, this.1, this.2⟩

example : Demo.s5.Reachable ∧ (∃ a ∈ Demo.s5.vars, a.ctx = some (1, 2)) ∧
    (∃ cell, Demo.s5.world.cells 1 = some cell ∧ cell.inner.poisoned = false) :=
  ⟨Demo.r5, ⟨⟨4, 0, some (1, 2)⟩, by simp [Demo.s5, Demo.s4], rfl⟩, _, rfl, rfl⟩

/-- C02: with inputs of arbitrary (mixed, poisoned, dropped) contexts in an arbitrary state, a result is
either a panic, or has the values and derivatives of the evaluation without contexts. -/
theorem C02_results_independent_of_contexts (f : Func S) (env : List (AFloat S)) (w w' : World S)
    {y : List (AFloat S)} (h : f.eval env w = (.ok y, w')) :
    f.eval (env.map AFloat.strip) w = (.ok (y.map AFloat.strip), w) := by
  rw [Func.eval_eq] at h
  have := runProgs_ok_dual _ _ _ h
  rw [Func.eval_strip]
  unfold Func.evalD Func.evalS
  rw [this]
  simp only [map_ok_eq, AFloat.strip_of_dual]

example : (Demo.branchF.eval [⟨4, 0, some (1, 2)⟩] Demo.s5.world).1 =
    .ok [⟨16, 0, some (1, 3)⟩] := by decide +kernel

/-! ## C03 -/

/-- C03: the recorded tape has the inputs and outputs of the evaluation it recorded. -/
theorem C03_tape_stores_evaluation (f : Func S) (x : List S) {w w' : World S} {t : Tape S}
    (hw : w.nextId < usizeMax) (e : f.tape x w = (.ok t, w')) :
    t.numIndeps = x.length ∧ t.x = .ok x ∧
      ∃ y, f.evalFloat x w = (.ok y, w) ∧ t.y = .ok y ∧ t.numDeps = y.length := by
  have h := (Func.tape_spec f x w hw).2
  rw [e] at h
  obtain ⟨_, -, h⟩ := h.ok_left
  refine ⟨by simp [Tape.numIndeps, h.indeps], ?_, _, by rw [Func.evalFloat_eq, h.out], Tape.y_eq h.wf,
    by simp [Tape.numDeps]⟩
  rw [Tape.x_eq h.wf, h.indeps]
  congr 1
  apply List.ext_getElem (by simp)
  intro k h1 h2
  simp only [List.getElem_map, List.getElem_range]
  rw [fn_prefix h.vals h2]
  simp [fn, h2]

example : (Demo.absF.tape [2, -3] Demo.w0).1.bind Tape.y = .ok [6, 8] ∧
    (Demo.absF.evalFloat [2, -3] Demo.w0).1 = .ok [6, 8] := by decide +kernel

/-- C03: recording panics exactly when the evaluation does, with the same panic. -/
theorem C03_tape_panics_iff (f : Func S) (x : List S) {w : World S} (hw : w.nextId < usizeMax) (e : Err) :
    (f.tape x w).1 = .error e ↔ (f.evalFloat x w).1 = .error e := by
  have h := (Func.tape_spec f x w hw).2
  rw [Func.evalFloat_eq]
  generalize (f.tape x w).1 = a at h
  generalize f.evalV x = b at h
  cases h with
  | error e' => constructor <;> (intro h; injection h with h; rw [h])
  | ok _ => constructor <;> intro h <;> cases h

example : (Demo.absF.tape [2] Demo.w0).1 = .error .user ∧
    (Demo.absF.evalFloat [2] Demo.w0).1 = .error .user := by decide +kernel

/-! ## C04 -/

/-- C04: replaying the tape of a straight-line function evaluates the function at the new point. -/
theorem C04_replay_evaluates (f : Func S) (hf : f.StraightLine) (x0 x1 : List S) {w w' w'' : World S}
    {t : Tape S} (hw : w.nextId < usizeMax) (e : f.tape x0 w = (.ok t, w'))
    (hlen : x1.length = x0.length) :
    ∃ t', t.zeroOrder x1 = .ok t' ∧ t'.x = .ok x1 ∧
      ∃ y, t'.y = .ok y ∧ f.evalFloat x1 w'' = (.ok y, w'') := by
  have h := (Func.tape_spec f x0 w hw).2
  rw [e] at h
  obtain ⟨_, -, h⟩ := h.ok_left
  obtain ⟨t', h1, h2, h3, h4⟩ := h.zeroOrder_eval hf hlen
  refine ⟨t', h1, h3, _, Tape.y_eq h2.wf, ?_⟩
  rw [Func.evalFloat_eq, h4, Tape.y_eq h2.wf]

theorem smoothF_straight : Demo.smoothF.StraightLine := by
  intro p hp
  simp only [Demo.smoothF, Func.advFn, Func.progs, List.mem_singleton] at hp
  subst hp
  refine ⟨fun xs => ?_, fun xs xs' h => by simp [h]⟩
  simp only
  split
  · simp [Prog.assertLen, Prog.StraightLine]
  · trivial

example : Demo.smoothF.StraightLine ∧
    ((Demo.smoothF.tape [2, 3] Demo.w0).1.bind (fun t => t.zeroOrder [5, 7])).bind Tape.y = .ok [35, -4] ∧
    (Demo.smoothF.evalFloat [5, 7] Demo.w0).1 = .ok [35, -4] :=
  ⟨smoothF_straight, by decide +kernel, by decide +kernel⟩

/-- The hypothesis is needed: the tape of a function that branches on values replays the recorded
branch. -/
theorem C04_needs_straight_line :
    ((Demo.branchF.tape [2] Demo.w0).1.bind (fun t => t.zeroOrder [1/2])).bind Tape.y = .ok [1/4] ∧
    (Demo.branchF.evalFloat [1/2] Demo.w0).1 = .ok [1/2] := by decide +kernel

/-! ## C05 -/

/-- C05: after any sequence of replays the complete tape contents depend on the last argument only. -/
theorem C05_replay_history_independent {t : Tape S} (h : t.Proper) (xs : List (List S)) (x : List S)
    (hxs : ∀ y ∈ xs, y.length = t.numIndeps) (hx : x.length = t.numIndeps) :
    (xs ++ [x]).foldlM (fun t y => t.zeroOrder y) t = t.zeroOrder x := by
  induction xs generalizing t with
  | nil =>
    simp only [List.nil_append, List.foldlM_cons, List.foldlM_nil]
    rcases t.zeroOrder x with e | t' <;> rfl
  | cons y xs ih =>
    obtain ⟨v', e, l, -, hp⟩ := h.zeroOrder (x := y) (hxs y (by simp))
    simp only [List.cons_append, List.foldlM_cons, e, bind_ok_eq]
    rw [ih hp (fun z hz => hxs z (by simp [hz])) hx]
    exact h.zeroOrder_zeroOrder hx e

/-- C05: replaying at the recording point restores the recorded tape. -/
theorem C05_replay_at_own_point {t : Tape S} (h : t.Proper) {x : List S} (hx : t.x = .ok x) :
    t.zeroOrder x = .ok t := by
  rw [Tape.x_eq h.wf] at hx
  injection hx with hx
  subst hx
  exact h.zeroOrder_self

/-- C05: the hypothesis holds for every recorded tape, and is preserved by replay. -/
theorem C05_recorded_proper {t : Tape S} (h : Recorded t) :
    t.Proper ∧ ∀ x t', t.zeroOrder x = .ok t' → t'.Proper := by
  refine ⟨h.proper, ?_⟩
  intro x t' e
  by_cases hx : x.length = t.indeps.length
  · obtain ⟨v', e', -, -, hp⟩ := h.proper.zeroOrder hx
    rw [e] at e'
    injection e' with e'
    subst e'; exact hp
  · simp [Tape.zeroOrder, Tape.numIndeps, assertR, hx] at e
    cases e

/-- A recorded tape. -/
def demoTape : Tape ℚ := ⟨[0, 1], [3, 4],
  [⟨.Mul, 2, some 0, some 1⟩, ⟨.Abs, 3, some 2, none⟩, ⟨.Add, 4, some 0, some 3⟩],
  [2, -3, -6, 6, 8], true⟩

theorem demoTape_recorded : Recorded demoTape :=
  .of_func (f := Demo.absF) (x := [2, -3]) Demo.hw0 (by decide +kernel)

example : demoTape.Proper ∧ [[1, 1], [2, 5]].foldlM (fun t y => t.zeroOrder y) demoTape =
    .ok { demoTape with vals := [2, 5, 10, 10, 12] } ∧ demoTape.x = .ok [2, -3] :=
  ⟨demoTape_recorded.proper, by decide +kernel, by decide +kernel⟩

/-- Non-vacuity: a tape that has been replayed is again one of the tapes the properties are about. -/
example : Recorded ({ demoTape with vals := [2, 5, 10, 10, 12] } : Tape ℚ) :=
  demoTape_recorded.replay [2, 5] (by decide +kernel)

/-! ## C06 -/

/-- C06: replay panics exactly on vectors of the wrong length. -/
theorem C06_replay_checks_length {t : Tape S} (h : Recorded t) (x : List S) :
    (x.length ≠ t.numIndeps → t.zeroOrder x = .error .assertFailed) ∧
    (x.length = t.numIndeps → ∃ t', t.zeroOrder x = .ok t') := by
  constructor
  · intro hx
    simp [Tape.zeroOrder, assertR, hx]; rfl
  · intro hx
    obtain ⟨v', e, -⟩ := h.proper.zeroOrder (x := x) hx
    exact ⟨_, e⟩

example : Recorded demoTape ∧ demoTape.zeroOrder [1] = .error .assertFailed ∧
    demoTape.numIndeps = 2 := ⟨demoTape_recorded, by decide +kernel, rfl⟩

/-! ## C07

The full statement, "`first_order_forward(dx)` equals the `dvalue()`s of evaluating on `(x, dx)` for
every scalar arithmetic and every function", is false when the function computes with constants only
and the scalar arithmetic has NaNs (`C07_nan_counterexample`): the tape stores the result of such a
computation as a constant with derivative 0, the tapeless evaluation propagates the derivative formula.
It is proved (a) for exact arithmetic and all functions, (b) for every arithmetic and all functions
each of whose operations has a non-constant operand. -/

theorem zeroTangent_of_lawful {K : Type} [Field K] [LinearOrder K] [IsStrictOrderedRing K] [Flt K]
    [LawfulFlt K] : ZeroTangent K := by
  intro o a b ho
  cases o <;> simp [OpCode.computes, OpCode.isBinary, OpCode.isUnary] at ho <;>
    simp [ffun, LawfulFlt.zero_eq, LawfulFlt.add_eq, LawfulFlt.sub_eq, LawfulFlt.mul_eq, LawfulFlt.div_eq,
      LawfulFlt.neg_eq]

theorem forward_eq_tapeless_aux (f : Func S) (hz : ZeroTangent S ∨ f.NoConstOps) {x dx : List S} {w w' w'' : World S}
    {t : Tape S} (hw : w.nextId < usizeMax) (e : f.tape x w = (.ok t, w')) (hlen : dx.length = x.length) :
    ∃ ys, f.eval ((x.zip dx).map fun p => AFloat.new p.1 p.2) w'' = (.ok ys, w'') ∧
      t.firstOrderForward dx = .ok (ys.map AFloat.dv) ∧ t.y = .ok (ys.map AFloat.v) := by
  have h := (Func.tape_spec f x w hw).2
  rw [e] at h
  obtain ⟨_, -, h⟩ := h.ok_left
  obtain ⟨ys, h1, h2, h3⟩ := h.forward_eval hz hlen
  refine ⟨ys.map fun p => AFloat.new p.1 p.2, ?_, ?_, ?_⟩
  · rw [Func.eval_new, h1]; rfl
  · rw [h2, List.map_map]; rfl
  · rw [h3, List.map_map]; rfl

/-- C07 (a): in exact arithmetic the forward sweep of the tape recorded at `x` gives the `dvalue()`s of
the tapeless evaluation on `(x, dx)`, for every function. -/
theorem C07_forward_eq_tapeless_exact {K : Type} [Field K] [LinearOrder K] [IsStrictOrderedRing K] [Flt K]
    [LawfulFlt K] (f : Func K) {x dx : List K} {w w' w'' : World K} {t : Tape K} (hw : w.nextId < usizeMax)
    (e : f.tape x w = (.ok t, w')) (hlen : dx.length = x.length) :
    ∃ ys, f.eval ((x.zip dx).map fun p => AFloat.new p.1 p.2) w'' = (.ok ys, w'') ∧
      t.firstOrderForward dx = .ok (ys.map AFloat.dv) ∧ t.y = .ok (ys.map AFloat.v) :=
  forward_eq_tapeless_aux f (Or.inl zeroTangent_of_lawful) hw e hlen

example : demoTape.firstOrderForward [1, 5] = .ok [-5, -4] ∧
    ((Demo.absF.eval [AFloat.new 2 1, AFloat.new (-3) 5] Demo.w0).1).map (List.map AFloat.dv) =
      .ok [-5, -4] := by decide +kernel

/-- C07 (b): in every scalar arithmetic the same holds, operation by operation, if no operation of the
function has constant operands only. -/
theorem C07_forward_eq_tapeless_partial (f : Func S) (hf : f.NoConstOps) {x dx : List S} {w w' w'' : World S}
    {t : Tape S} (hw : w.nextId < usizeMax) (e : f.tape x w = (.ok t, w')) (hlen : dx.length = x.length) :
    ∃ ys, f.eval ((x.zip dx).map fun p => AFloat.new p.1 p.2) w'' = (.ok ys, w'') ∧
      t.firstOrderForward dx = .ok (ys.map AFloat.dv) ∧ t.y = .ok (ys.map AFloat.v) :=
  forward_eq_tapeless_aux f (Or.inr hf) hw e hlen

example : Demo.absF.NoConstOps := by
  simp only [Func.NoConstOps, Demo.absF, Func.advFn, Func.progs, progsNoConst]
  intro n
  split
  · simp [Prog.assertLen, Prog.NoConstOps]
  · trivial

/-- `x ↦ 1 / 0`, computed from constants. -/
def nanF : Func NQ := Func.advFn 1 1 fun _ =>
  (.op .Div (.lit (.fin 1)) (some (.lit (.fin 0))) fun i _ => .ret [.var i])

/-- The unrestricted statement fails: tape derivative `0`, tapeless derivative NaN. -/
theorem C07_nan_counterexample :
    (nanF.tape [.fin 1] (HState.init : HState NQ).world).1.bind (fun t => t.firstOrderForward [.fin 1]) =
      .ok [.fin 0] ∧
    ((nanF.eval [AFloat.new (.fin 1) (.fin 1)] (HState.init : HState NQ).world).1).map
      (List.map AFloat.dv) = .ok [.nan] := by decide +kernel

/-! ## C53 -/

theorem scatterFn_excess {α : Type} (ids : List Nat) (xs ys : List α) (f : Nat → α)
    (h : xs.length = ids.length) : scatterFn ids (xs ++ ys) f = scatterFn ids xs f := by
  induction ids generalizing xs f with
  | nil =>
    simp only [scatterFn]
  | cons i ids ih =>
    cases xs with
    | nil => simp at h
    | cons x xs => simp only [List.cons_append, scatterFn]; exact ih xs _ (by simpa using h)

/-- C53: the forward sweep panics exactly on too short vectors; excess entries are ignored. -/
theorem C53_forward_length {t : Tape S} (h : Recorded t) (dx : List S) :
    (dx.length < t.numIndeps → t.firstOrderForward dx = .error .indexOutOfBounds) ∧
    (t.numIndeps ≤ dx.length → ∃ dy, t.firstOrderForward dx = .ok dy ∧ dy.length = t.numDeps ∧
      t.firstOrderForward (dx.take t.numIndeps) = .ok dy) := by
  have hwf := h.proper.wf
  constructor
  · intro hlt
    unfold Tape.firstOrderForward
    simp only
    rw [scatter_err (by simpa using hwf.indeps_lt) hlt]; rfl
  · intro hle
    refine ⟨_, Tape.firstOrderForward_eq hwf hle, by simp [Tape.numDeps], ?_⟩
    have hl : (dx.take t.numIndeps).length = t.indeps.length := by simp [Tape.numIndeps] at *; omega
    rw [Tape.firstOrderForward_eq hwf (by omega)]
    have := scatterFn_excess t.indeps (dx.take t.numIndeps) (dx.drop t.numIndeps)
      (fun _ => (Flt.zero : S)) hl
    rw [List.take_append_drop] at this
    rw [this]

/-- C53: the same for the reverse sweep of a tape without abs. -/
theorem C53_reverse_length {t : Tape S} (h : Recorded t) (hna : t.AbsFree) (ybar : List S) :
    (ybar.length < t.numDeps → t.firstOrderReverse ybar = .error .indexOutOfBounds) ∧
    (t.numDeps ≤ ybar.length → ∃ xbar, t.firstOrderReverse ybar = .ok xbar ∧ xbar.length = t.numIndeps ∧
      t.firstOrderReverse (ybar.take t.numDeps) = .ok xbar) := by
  have hwf := h.proper.wf
  constructor
  · intro hlt
    unfold Tape.firstOrderReverse
    simp only
    rw [scatter_err (by simpa using hwf.deps_lt) hlt]; rfl
  · intro hle
    refine ⟨_, Tape.firstOrderReverse_eq hwf hna hle, by simp [Tape.numIndeps], ?_⟩
    have hl : (ybar.take t.numDeps).length = t.deps.length := by simp [Tape.numDeps] at *; omega
    rw [Tape.firstOrderReverse_eq hwf hna (by omega)]
    have := scatterFn_excess t.deps (ybar.take t.numDeps) (ybar.drop t.numDeps)
      (fun _ => (Flt.zero : S)) hl
    rw [List.take_append_drop] at this
    rw [this]

/-- A recorded tape without abs: `(x, y) ↦ (x * y, 3 - x * y / x)` at `(2, 3)`. -/
def smoothTape : Tape ℚ := ⟨[0, 1], [2, 5],
  [⟨.Mul, 2, some 0, some 1⟩, ⟨.Div, 3, some 2, some 0⟩, ⟨.Const, 4, none, none⟩,
   ⟨.Sub, 5, some 4, some 3⟩], [2, 3, 6, 3, 3, 0], true⟩

theorem smoothTape_recorded : Recorded smoothTape :=
  .of_func (f := Demo.smoothF) (x := [2, 3]) Demo.hw0 (by decide +kernel)

theorem smoothTape_absFree : smoothTape.AbsFree := by
  show ∀ op ∈ smoothTape.ops, op.opcode ≠ .Abs
  decide

example : Recorded smoothTape ∧ smoothTape.AbsFree ∧
    smoothTape.firstOrderForward [1] = .error .indexOutOfBounds ∧
    smoothTape.firstOrderForward [1, 2, 7] = .ok [7, -2] ∧
    smoothTape.firstOrderReverse [1, 0, 4] = .ok [3, 2] :=
  ⟨smoothTape_recorded, smoothTape_absFree, by decide +kernel, by decide +kernel, by decide +kernel⟩

end Adv.Props
