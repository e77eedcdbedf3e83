import Verif.Proof.ValueMut
import Verif.Spec.Demo

/-!
# `value_mut` of recorded variables: C81
-/

set_option linter.unusedSectionVars false

namespace Adv.Props
open Adv

variable {S : Type} [Flt S]

theorem tape_cases {w : World S} {c n : Nat} {i : Inner S} (hc : w.cells c = some ⟨n, i⟩) :
    (i.poisoned = false ∧ AContext.tape ⟨c⟩ w = (.ok i.tape, w)) ∨
      (i.poisoned = true ∧ AContext.tape ⟨c⟩ w = (.error .poisoned, w)) := by
  rcases hp : i.poisoned
  · exact .inl ⟨rfl, tape_live hc hp⟩
  · refine .inr ⟨rfl, ?_⟩
    have : (AContext.indeps ⟨c⟩ : M (World S) _) w = (.error .poisoned, w) := withLock_poisoned hc hp
    unfold AContext.tape
    rw [M.bind_error this]

/-- C81 (structure): whatever values variables are given with `value_mut`, in any history, the recorded tapes have the
same inputs, outputs and operations as without these changes. They are single-assignment programs, and replaying them
yields consistent tapes. -/
theorem C81_value_mut_keeps_structure (cs : List (HCall S)) {c : Nat} {t : Tape S} {w : World S}
    (hc : c ∈ (runCalls false cs HState.init).handles)
    (e : AContext.tape ⟨c⟩ (runCalls false cs HState.init).world = (.ok t, w)) :
    (∃ t' w', AContext.tape ⟨c⟩ (runCalls true cs HState.init).world = (.ok t', w') ∧ t'.Proper ∧
      t.indeps = t'.indeps ∧ t.deps = t'.deps ∧ t.ops = t'.ops ∧ t.vals.length = t'.vals.length) ∧
    t.WF ∧ t.Complete ∧ ∀ x, x.length = t.indeps.length → ∃ t₂, t.zeroOrder x = .ok t₂ ∧ t₂.Proper := by
  have h := runCalls_sim (K := False) (cs := cs) (fun h => h.elim) MutSim.init
  obtain ⟨n, i, i', e1, e2, hi⟩ := h.handle (h.handles ▸ hc)
  have hpr : i'.tape.Proper := (h.inv e2).2.1.proper
  rcases tape_cases e1 with ⟨hp, e3⟩ | ⟨-, e3⟩
  · rw [e3] at e
    injection e with e4 e5
    injection e4 with e4
    subst e4
    rcases tape_cases e2 with ⟨-, e6⟩ | ⟨hp', -⟩
    · have eq : ({ i'.tape with vals := i.vals } : Tape S) = i.tape := by
        simp only [Inner.tape, hi.indeps, hi.deps, hi.ops]
      have hwf : i.tape.WF := by
        have := hpr.wf.withVals (v := i.vals) hi.len
        rwa [eq] at this
      have hcomp : i.tape.Complete := by
        intro k hk
        have := hpr.complete k (by rw [← show i.tape.vals.length = i'.tape.vals.length from hi.len]; exact hk)
        rw [← show i.tape.indeps = i'.tape.indeps from hi.indeps, ← show i.tape.ops = i'.tape.ops from hi.ops] at this
        exact this
      have hnn : ∀ op ∈ i.tape.ops, op.opcode ≠ .Nop := by
        rw [show i.tape.ops = i'.tape.ops from hi.ops]
        exact hpr.noNop
      refine ⟨⟨_, _, e6, hpr, hi.indeps, hi.deps, hi.ops, hi.len⟩, hwf, hcomp, fun x hx => ?_⟩
      obtain ⟨v, k1, -, -, k4⟩ := hwf.zeroOrder hcomp hnn rfl hx
      exact ⟨_, k1, k4⟩
    · rw [hi.poisoned, hp'] at hp; cases hp
  · rw [e3] at e; cases e

/-- C81: `value_mut` of variables that belong to a context does not change what a tape computes. In a history in which no
context is destroyed, every context yields a tape with and without these changes of values, or it yields none in both
cases; and replaying the two tapes at the same inputs has the same result, be it a tape or a panic. -/
theorem C81_value_mut_does_not_change_replays {cs : List (HCall S)} (hd : NoDrop cs) :
    (runCalls false cs HState.init).handles = (runCalls true cs HState.init).handles ∧
    ∀ c ∈ (runCalls false cs HState.init).handles,
      (∃ t t' w w', AContext.tape ⟨c⟩ (runCalls false cs HState.init).world = (.ok t, w) ∧
        AContext.tape ⟨c⟩ (runCalls true cs HState.init).world = (.ok t', w') ∧
        ∀ x, t.zeroOrder x = t'.zeroOrder x) ∨
      (∃ w w', AContext.tape ⟨c⟩ (runCalls false cs HState.init).world = (.error .poisoned, w) ∧
        AContext.tape ⟨c⟩ (runCalls true cs HState.init).world = (.error .poisoned, w')) := by
  have h := runCalls_sim (K := True) (cs := cs) (fun _ => hd) MutSim.init
  refine ⟨h.handles, fun c hc => ?_⟩
  obtain ⟨n, i, i', e1, e2, hi⟩ := h.handle (h.handles ▸ hc)
  have hpr : i'.tape.Proper := (h.inv e2).2.1.proper
  rcases tape_cases e1 with ⟨hp, e3⟩ | ⟨hp, e3⟩ <;> rcases tape_cases e2 with ⟨hp', e4⟩ | ⟨hp', e4⟩
  · exact .inl ⟨_, _, _, _, e3, e4, hi.zeroOrder hpr⟩
  · rw [hi.poisoned, hp'] at hp; cases hp
  · rw [hi.poisoned, hp'] at hp; cases hp
  · exact .inr ⟨_, _, e3, e4⟩

/-! Two contexts. In the first one `x = 3` is recorded, changed to 5, and `x * x` and `x + 2` are computed; 2 is a plain
number that was 7 before. -/

/-- The history of the example. -/
def changed : List (HCall ℚ) :=
  [.new, .scalar 3 0, .setIndep 1 0, .value 1 5, .op .Mul 2 (some 2), .scalar 7 0, .value 4 2, .op .Add 2 (some 5),
    .setDep 1 3, .setDep 1 6]

/-- Non-vacuity: the values on the two tapes differ (25 is the square of the changed value, 9 that of the recorded one),
the constant is the same. -/
example : NoDrop changed ∧
    (AContext.tape ⟨1⟩ (runCalls false changed HState.init).world).1 = .ok ⟨[0], [1, 3],
      [⟨.Mul, 1, some 0, some 0⟩, ⟨.Const, 2, none, none⟩, ⟨.Add, 3, some 0, some 2⟩], [3, 25, 2, 7], true⟩ ∧
    (AContext.tape ⟨1⟩ (runCalls true changed HState.init).world).1 = .ok ⟨[0], [1, 3],
      [⟨.Mul, 1, some 0, some 0⟩, ⟨.Const, 2, none, none⟩, ⟨.Add, 3, some 0, some 2⟩], [3, 9, 2, 5], true⟩ :=
  ⟨by intro c hc; simp [changed] at hc, by decide +kernel, by decide +kernel⟩

/-- C81 (before the first replay the values are not those of an evaluation): the tape of the example has the value 25 for
the square of 3. Derivatives that are computed from these values are wrong until the tape is replayed. -/
theorem C81_recorded_values_not_consistent : ∃ (cs : List (HCall ℚ)) (t : Tape ℚ), NoDrop cs ∧
    1 ∈ (runCalls false cs HState.init).handles ∧
    (AContext.tape ⟨1⟩ (runCalls false cs HState.init).world).1 = .ok t ∧ ¬ t.Consistent ∧
    t.x = .ok [3] ∧ t.y = .ok [25, 7] ∧ (t.zeroOrder [3] >>= Tape.y) = .ok [9, 5] := by
  refine ⟨changed, ⟨[0], [1, 3],
      [⟨.Mul, 1, some 0, some 0⟩, ⟨.Const, 2, none, none⟩, ⟨.Add, 3, some 0, some 2⟩], [3, 25, 2, 7], true⟩,
    by intro c hc; simp [changed] at hc, by decide +kernel, by decide +kernel, ?_, by decide +kernel, by decide +kernel,
    by decide +kernel⟩
  intro h
  have h1 := h ⟨.Mul, 1, some 0, some 0⟩ (by simp)
  have h2 : (⟨.Mul, 1, some 0, some 0⟩ : Operation).zeroOrder ([3, 25, 2, 7] : List ℚ) = .ok [3, 9, 2, 7] := by
    decide +kernel
  rw [h2] at h1
  injection h1 with h1
  simp at h1

/-- A history in which the context of a changed variable is destroyed. -/
def destroyed : List (HCall ℚ) :=
  [.new, .scalar 1 0, .setIndep 1 0, .value 1 5, .drop 1, .op .Add 2 (some 2), .new, .scalar 2 0, .setIndep 2 4,
    .op .Mul 5 (some 3), .setDep 2 6]

/-- C81 (the condition is needed): after its context has been destroyed, a variable is a plain number with its changed
value, which may become a constant of another tape. -/
theorem C81_destroyed_context_counterexample : ∃ (cs : List (HCall ℚ)) (t t' : Tape ℚ),
    2 ∈ (runCalls false cs HState.init).handles ∧
    (AContext.tape ⟨2⟩ (runCalls false cs HState.init).world).1 = .ok t ∧
    (AContext.tape ⟨2⟩ (runCalls true cs HState.init).world).1 = .ok t' ∧
    (t.zeroOrder [1] >>= Tape.y) = .ok [10] ∧ (t'.zeroOrder [1] >>= Tape.y) = .ok [2] :=
  ⟨destroyed, ⟨[0], [2], [⟨.Const, 1, none, none⟩, ⟨.Mul, 2, some 0, some 1⟩], [2, 10, 20], true⟩,
    ⟨[0], [2], [⟨.Const, 1, none, none⟩, ⟨.Mul, 2, some 0, some 1⟩], [2, 2, 4], true⟩,
    by decide +kernel, by decide +kernel, by decide +kernel, by decide +kernel, by decide +kernel⟩

end Adv.Props
