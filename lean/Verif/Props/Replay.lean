import Verif.Proof.Relabel
import Verif.Proof.Replay
import Verif.Props.Jacobian
import Verif.Props.Recording

/-!
# C58: replaying a tape is recording it again

`Tape::zero_order` overwrites the values of a tape in place. For a function without branches the outcome is, bit
for bit and in any arithmetic, the tape that recording the function at the new point gives, so every driver
applied to a replayed tape gives what it gives on a fresh recording. For functions with branches the outcome
agrees exactly when the fresh recording has the same operations, dependents and constants.
-/

set_option linter.unusedSectionVars false

namespace Adv.Props
open Adv
open scoped Adv

section any
variable {S : Type} [Flt S]

/-- C58: replaying the tape of a straight-line function at `x1` gives the tape recorded at `x1`, whatever happened
in between (the second recording may take place in any world). -/
theorem C58_replay_is_rerecording (f : Func S) (hf : f.StraightLine) {x0 x1 : List S} (hx : x1.length = x0.length)
    {w w' w2 : World S} {t : Tape S} (hw : w.nextId < usizeMax) (hw2 : w2.nextId < usizeMax)
    (e : f.tape x0 w = (.ok t, w')) : ∃ t1, t.zeroOrder x1 = .ok t1 ∧ f.tape x1 w2 = (.ok t1, w2.afterTape) := by
  have hl := Func.tape_like f hf hx hw
  have h0 := (Func.tape_spec f x0 w hw).2
  rw [e] at hl h0
  obtain ⟨_, -, h0⟩ := h0.ok_left
  obtain ⟨t1, e1, hl⟩ := hl.ok_left
  have h1 := (Func.tape_spec f x1 w hw).2
  rw [e1] at h1
  obtain ⟨_, -, h1⟩ := h1.ok_left
  refine ⟨t1, h0.zeroOrder_like h1 hl, ?_⟩
  apply Prod.ext
  · rw [← e1]; exact Func.tape_world f x1 hw2 hw
  · exact (Func.tape_spec f x1 w2 hw2).1

example : Demo.smoothF.StraightLine ∧
    (Demo.smoothF.tape [2, 3] Demo.w0).1.bind (fun t => t.zeroOrder [5, 7]) = (Demo.smoothF.tape [5, 7] Demo.w0).1 ∧
    (Demo.smoothF.tape [5, 7] Demo.w0).1 = .ok ⟨[0, 1], [2, 5], [⟨.Mul, 2, some 0, some 1⟩, ⟨.Div, 3, some 2, some 0⟩,
      ⟨.Const, 4, none, none⟩, ⟨.Sub, 5, some 4, some 3⟩], [5, 7, 35, 7, 3, -4], true⟩ :=
  ⟨smoothF_straight, by decide +kernel, by decide +kernel⟩

/-- C58: for an arbitrary function, replaying the recording at `x0` at `x1` gives the recording at `x1` if and only
if both recordings consist of the same operations with the same constants and name the same dependents. -/
theorem C58_replay_iff (f : Func S) {x0 x1 : List S} {w w' w1 w1' : World S} {t t1 : Tape S}
    (hw : w.nextId < usizeMax) (hw1 : w1.nextId < usizeMax)
    (e : f.tape x0 w = (.ok t, w')) (e1 : f.tape x1 w1 = (.ok t1, w1')) :
    t.zeroOrder x1 = .ok t1 ↔ x1.length = x0.length ∧ t1.ops = t.ops ∧ t1.deps = t.deps ∧
      ∀ op ∈ t.ops, op.opcode = .Const → t1.vals[op.vid]? = t.vals[op.vid]? := by
  have h0 := (Func.tape_spec f x0 w hw).2
  rw [e] at h0
  obtain ⟨_, -, h0⟩ := h0.ok_left
  have h1 := (Func.tape_spec f x1 w1 hw1).2
  rw [e1] at h1
  obtain ⟨_, -, h1⟩ := h1.ok_left
  have hmem : ∀ op ∈ t.ops, op.opcode = .Const → op.vid < t.vals.length := fun op ho hc =>
    h0.wf.vid_lt op (mem_activeOps.mpr ⟨ho, by rw [hc]; simp⟩)
  constructor
  · intro ez
    have hl := h0.proper.zeroOrder_like ez
    refine ⟨?_, hl.ops, hl.deps, fun op ho hc => ?_⟩
    · have := hl.indeps
      rw [h0.indeps, h1.indeps] at this
      simpa using congrArg List.length this
    · have := hmem op ho hc
      have hc := hl.cst op ho hc
      have hlt : op.vid < t1.vals.length := by rw [hl.len]; exact this
      simp only [fn, List.getElem?_eq_getElem this, List.getElem?_eq_getElem hlt, Option.getD_some] at hc ⊢
      rw [hc]
  · rintro ⟨hx, ho, hd, hc⟩
    have hi : t1.indeps = t.indeps := by rw [h0.indeps, h1.indeps, hx]
    have hle : ∀ {a b : Tape S} {g g' : Func S} {y y' : List S}, TapeOf g y a → TapeOf g' y' b → a.indeps = b.indeps →
        a.ops = b.ops → ¬ a.vals.length < b.vals.length := by
      intro a b g g' y y' ha hb hi ho hlt
      rcases hb.complete _ hlt with h | ⟨op, hop, h⟩
      · rw [← hi] at h
        exact Nat.lt_irrefl _ (ha.wf.indeps_lt _ h)
      · rw [← ho] at hop
        have := ha.wf.vid_lt op hop
        omega
    have hl : t1.vals.length = t.vals.length := by
      have := hle h0 h1 hi.symm ho.symm
      have := hle h1 h0 hi ho
      omega
    refine h0.zeroOrder_like h1 ⟨hi, hd, ho, hl, fun op hop hk => ?_⟩
    have := hc op hop hk
    simp only [fn, this]

/-- C58: a branch that is taken differently makes the two sides differ. -/
theorem C58_branch_counterexample :
    ∃ t0 t1 : Tape ℚ, (Demo.branchF.tape [2] Demo.w0).1 = .ok t0 ∧ (Demo.branchF.tape [1/2] Demo.w0).1 = .ok t1 ∧
      t0.ops ≠ t1.ops ∧ t0.zeroOrder [1/2] ≠ .ok t1 :=
  ⟨⟨[0], [1], [⟨.Mul, 1, some 0, some 0⟩], [2, 4], true⟩, ⟨[0], [0], [], [1/2], true⟩, by decide +kernel,
    by decide +kernel, by decide +kernel, by decide +kernel⟩

/-- C58: nor does it suffice that the operations agree: a function that uses the value of its argument as a
constant records the same operations everywhere. -/
theorem C58_constant_counterexample :
    ∃ (f : Func ℚ) (t0 t1 : Tape ℚ), (f.tape [2] Demo.w0).1 = .ok t0 ∧ (f.tape [3] Demo.w0).1 = .ok t1 ∧
      t1.ops = t0.ops ∧ t1.deps = t0.deps ∧ t0.zeroOrder [3] ≠ .ok t1 :=
  ⟨Func.advFn 1 1 fun xs => .op .Mul (.var 0) (some (.lit (xs.headD 0))) fun j _ => .ret [.var j],
    ⟨[0], [2], [⟨.Const, 1, none, none⟩, ⟨.Mul, 2, some 0, some 1⟩], [2, 2, 4], true⟩,
    ⟨[0], [2], [⟨.Const, 1, none, none⟩, ⟨.Mul, 2, some 0, some 1⟩], [3, 3, 9], true⟩, by decide +kernel,
    by decide +kernel, by decide +kernel, by decide +kernel, by decide +kernel⟩

/-- C58: so every driver that works on a tape gives the same on the replayed tape as on a fresh recording; stated
for an arbitrary observation `obs` of a tape. -/
theorem C58_observations {β : Type} (obs : Tape S → β) (f : Func S) (hf : f.StraightLine) {x0 x1 : List S}
    (hx : x1.length = x0.length) {w w' w2 : World S} {t : Tape S} (hw : w.nextId < usizeMax)
    (hw2 : w2.nextId < usizeMax) (e : f.tape x0 w = (.ok t, w')) :
    (t.zeroOrder x1).map obs = (f.tape x1 w2).1.map obs := by
  obtain ⟨t1, h1, h2⟩ := C58_replay_is_rerecording f hf hx hw hw2 e
  rw [h1, h2]

end any

section field
variable {K : Type} [Field K] [LinearOrder K] [IsStrictOrderedRing K] [Flt K] [LawfulFlt K]

/-- C12 on replayed tapes: the reverse-mode Jacobian on a tape replayed at `x1` is the forward-mode Jacobian of the
function at `x1`. Straight-line functions, no `abs`, distinct dependents (see
`C12_duplicate_outputs_counterexample` and `C57_jacobian_reverse_rows` for repeated ones). -/
theorem C12_replayed_partial {σ σ' : Sched} (hσ : σ.Valid) (hσ' : σ'.Valid) (f : Func K) (hf : f.StraightLine)
    {x0 x1 : List K} (hx : x1.length = x0.length)
    {w w' w'' : World K} {t : Tape K} (hw : w.nextId < usizeMax) (e : f.tape x0 w = (.ok t, w'))
    (hn : f.n = .ok x0.length) (hm : f.m = .ok t.numDeps) (ha : t.AbsFree) (hnd : t.deps.Nodup) :
    ∃ J, jacobianForward σ f x1 w'' = (.ok J, w'') ∧ (t.zeroOrder x1 >>= jacobianReverse σ') = .ok J ∧
      J.nrows = t.numDeps ∧ J.ncols = x1.length := by
  obtain ⟨t1, h1, h2⟩ := C58_replay_is_rerecording f hf hx hw hw e
  have h0 := (Func.tape_spec f x0 w hw).2
  rw [e] at h0
  obtain ⟨_, -, h0⟩ := h0.ok_left
  have hl := h0.proper.zeroOrder_like h1
  have hd : t1.numDeps = t.numDeps := by simp only [Tape.numDeps, hl.deps]
  obtain ⟨J, j1, j2, j3, j4⟩ := C12_forward_eq_reverse_partial (w'' := w'') hσ hσ' f hw h2 (by rw [hn, hx])
    (by rw [hm, hd]) (by simp only [Tape.AbsFree] at ha ⊢; rw [hl.ops]; exact ha) (by rw [hl.deps]; exact hnd)
  exact ⟨J, j1, by rw [h1]; exact j2, j3.trans hd, j4⟩

example : Demo.smoothF.StraightLine ∧
    ((Demo.smoothF.tape [2, 3] Demo.w0).1.bind fun t => (t.zeroOrder [5, 7]).bind fun t =>
      (jacobianReverse Sched.seq t).map DMat.toRows) = .ok [[7, 5], [0, -1]] ∧
    (jacobianForward Sched.seq Demo.smoothF [5, 7] Demo.w0).1.map DMat.toRows = .ok [[7, 5], [0, -1]] :=
  ⟨smoothF_straight, by decide +kernel, by decide +kernel⟩

end field
end Adv.Props
