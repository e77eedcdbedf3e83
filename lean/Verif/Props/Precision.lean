import Verif.Proof.MixedHistory
import Verif.Props.Contexts
import Verif.Props.Rounding

/-!
# Property C66: single precision and mixed precision
-/

namespace Adv.Props
open Adv

/-! ## One precision -/

section one
variable {S F : Type} [Flt S]

/-- C66: the functions with a conversion generalise those of the rest of the model, where it is the identity. -/
theorem C66_double_precision (c : AContext) (a : AFloat S) (b : Option (AFloat S)) (o : OpCode) (f : Func S) (x : List S) :
    c.setIndepVia id a = c.setIndep a ∧ c.setDepVia id a = c.setDep a ∧
    AFloat.fromOpVia id o a b = AFloat.fromOp o a b ∧ f.tapeVia id x = f.tape x :=
  ⟨rfl, rfl, fromOpVia_id o a b, tapeVia_id f x⟩

/-- C66: operations on `AFloat<f32>` return the same variables and have the same effect on the registry as in a process
where everything is `f32`, except that the recorded values are converted. -/
theorem C66_operation (up : S → F) (o : OpCode) (a : AFloat S) (b : Option (AFloat S)) (w : World S) :
    AFloat.fromOpVia up o a b (w.map up) = ((AFloat.fromOp o a b w).1, (AFloat.fromOp o a b w).2.map up) := by
  rw [natl_fromOp_up up o a b w]
  rcases AFloat.fromOp o a b w with ⟨e | r, w'⟩ <;> rfl

/-- C66 for the evaluation of functions. -/
theorem C66_evaluation (up : S → F) (f : Func S) (x : List (AFloat S)) (w : World S) :
    f.evalVia up x (w.map up) = ((f.eval x w).1, (f.eval x w).2.map up) := by
  rw [natl_eval up f x w]
  rcases f.eval x w with ⟨e | r, w'⟩ <;> rfl

/-- C66: the tape of an `f32` computation is the one that would be recorded without conversion, with converted values:
same independents, dependents and operations. -/
theorem C66_recording (up : S → F) (f : Func S) (x : List S) (w : World S) :
    f.tapeVia up x (w.map up) = ((f.tape x w).1.map (Tape.map up), (f.tape x w).2.map up) := natl_tapeVia up f x w

/-- Such a tape is in single-assignment form. -/
theorem C66_recording_single_assignment (up : S → F) (f : Func S) (x : List S) {w : World S} {t : Tape F} {w' : World F}
    (hw : w.nextId < usizeMax) (e : f.tapeVia up x (w.map up) = (.ok t, w')) :
    t.WF ∧ t.Complete ∧ (t.vals ≠ [] → t.maxId < t.vals.length) := by
  rw [C66_recording] at e
  rcases ht : f.tape x w with ⟨r | t₀, w₀⟩
  · rw [ht] at e; cases e
  rw [ht] at e
  injection e with e1 e2
  injection e1 with e1
  subst e1
  obtain ⟨h1, h2, -, h4⟩ := C50_function_tapes_single_assignment f x hw ht
  refine ⟨⟨?_, ?_, h1.indeps_nodup, h1.arity, ?_, h1.args_lt, h1.vid_fresh, h1.sorted⟩, ?_, ?_⟩
  · simpa [Tape.map] using h1.indeps_lt
  · simpa [Tape.map] using h1.deps_lt
  · simpa [Tape.map] using h1.vid_lt
  · simpa [Tape.map, Tape.Complete] using h2
  · intro hne
    have := h4 (by simpa [Tape.map] using hne)
    simpa [Tape.map, Tape.maxId] using this

end one

/-- Non-vacuity: `f64` is replaced by pairs. -/
example : ∃ t w', Demo.smoothF.tapeVia (fun q : ℚ => (q, q + 1)) [2, 3] (Demo.w0.map fun q => (q, q + 1)) = (.ok t, w') ∧
    Demo.w0.nextId < usizeMax ∧ t.vals = [(2, 3), (3, 4), (6, 7), (3, 4), (3, 4), (0, 1)] := by
  rcases h : Demo.smoothF.tapeVia (fun q : ℚ => (q, q + 1)) [2, 3] (Demo.w0.map fun q => (q, q + 1)) with ⟨r, w'⟩
  have h1 : (Demo.smoothF.tapeVia (fun q : ℚ => (q, q + 1)) [2, 3] (Demo.w0.map fun q => (q, q + 1))).1.map Tape.vals =
    .ok [(2, 3), (3, 4), (6, 7), (3, 4), (3, 4), (0, 1)] := by decide +kernel
  rw [h] at h1
  cases r with
  | error e => cases h1
  | ok t =>
    injection h1 with h1
    exact ⟨t, w', rfl, by decide, h1⟩

/-! ## Several precisions in one process -/

section mixed
variable {P : Type} {T : P → Type} [∀ p, Flt (T p)] {F : Type} {up : ∀ p, T p → F} {conv : ∀ p q, T p → T q}

attribute [local instance] unitFlt in
/-- C66: however variables of several precisions are combined, converted with `cast` and changed with `value_mut`, every
tape is in single-assignment form and defines every value. -/
theorem C66_mixed_single_assignment {s : MState T F} (hr : s.Reachable up conv) {c : Nat} {t : Tape F} {w' : World F}
    (hc : c ∈ s.handles) (e : AContext.tape ⟨c⟩ s.world = (.ok t, w')) :
    t.WF ∧ t.Complete ∧ (t.vals ≠ [] → t.maxId < t.vals.length) := by
  have h1 := natl_tape (fun _ : F => ()) ⟨c⟩ s.world
  rw [e] at h1
  obtain ⟨k1, k2, -, k4, -⟩ := C50_recorded_tapes_single_assignment (s := s.forget) (MSteps.forget hr) hc h1
  refine ⟨wf_of_map k1, ?_, ?_⟩
  · simpa [Tape.map, Tape.Complete] using k2
  · intro hne
    have := k4 (by simpa [Tape.map] using hne)
    simpa [Tape.map, Tape.maxId] using this

omit [∀ p, Flt (T p)] in
theorem tape_alive {s : MState T F} (hi : @HInv Unit unitFlt s.forget) {c : Nat} {t : Tape F} {w' : World F}
    (hc : c ∈ s.handles) (e : AContext.tape ⟨c⟩ s.world = (.ok t, w')) :
    ∃ cell, s.world.cells c = some cell ∧ t.ops = cell.inner.ops ∧ t.vals = cell.inner.vals := by
  rcases hcell : s.world.cells c with _ | ⟨n, i⟩
  · exact absurd hc (@HInv.dead Unit unitFlt _ hi c (by
      show (s.world.map fun _ => ()).cells c = none
      rw [World.map_cells, hcell]; rfl))
  refine ⟨_, rfl, ?_⟩
  unfold AContext.tape at e
  by_cases hp : i.poisoned = true
  · have h : (AContext.indeps ⟨c⟩ : M (World F) _) s.world = (.error .poisoned, s.world) := withLockF_poisoned hcell hp
    rw [M.bind_error h] at e
    cases e
  · have h : ∀ {α : Type} (g : Inner F → α),
        AContext.withLock ⟨c⟩ (fun i => (.ok (g i), i)) s.world = (.ok (g i), s.world) := by
      intro α g
      have := withLockF_ok (f := fun i : Inner F => (.ok (g i), i)) (x := g i) (i' := i) hcell (by simpa using hp) rfl
      rw [this, World.setCell_self hcell]
    have k1 : (AContext.indeps ⟨c⟩ : M (World F) _) s.world = (.ok i.indeps, s.world) := h Inner.indeps
    have k2 : (AContext.deps ⟨c⟩ : M (World F) _) s.world = (.ok i.deps, s.world) := h Inner.deps
    have k3 : (AContext.operations ⟨c⟩ : M (World F) _) s.world = (.ok i.ops, s.world) := h Inner.ops
    have k4 : (AContext.values ⟨c⟩ : M (World F) _) s.world = (.ok i.vals, s.world) := h Inner.vals
    rw [M.bind_ok k1, M.bind_ok k2, M.bind_ok k3, M.bind_ok k4] at e
    cases e
    exact ⟨rfl, rfl⟩

/-- C66: if values are only changed by widening conversions, a variable holds the number that is recorded for it, and
every operation on a tape was computed in one of the precisions from the recorded arguments. -/
theorem C66_mixed_values {s : MState T F} (hr : s.ReachableExact up conv) {c : Nat} {t : Tape F} {w' : World F}
    (hc : c ∈ s.handles) (e : AContext.tape ⟨c⟩ s.world = (.ok t, w')) :
    t.MixedConsistent up ∧ ∀ p (a : AFloat (T p)) vid, ⟨p, a⟩ ∈ s.vars → a.ctx = some (c, vid) →
      t.vals[vid]? = some (up p a.v) := by
  have hv := hr.vinv
  obtain ⟨cell, h1, h2, h3⟩ := tape_alive (MSteps.inv hr) hc e
  refine ⟨?_, ?_⟩
  · have := hv.ops c cell h1
    intro op hop hne
    rw [h2] at hop
    rw [h3]
    exact this op hop hne
  · intro p a vid ha hctx
    rw [h3]
    exact hv.vars p a ha c vid hctx cell h1

/-- C66: one replay repairs such a tape. `zero_order` succeeds, keeps independents, dependents and operations, and makes
the tape consistent; everything that holds for tapes recorded in one precision holds for the result (`Recorded`). -/
theorem C66_mixed_replay [Flt F] {s : MState T F} (hr : s.Reachable up conv) {c : Nat} {t : Tape F} {w' : World F}
    (hc : c ∈ s.handles) (e : AContext.tape ⟨c⟩ s.world = (.ok t, w')) (x : List F) (hx : x.length = t.numIndeps) :
    ∃ t', t.zeroOrder x = .ok t' ∧ Recorded t' ∧ t'.Consistent ∧ t'.x = .ok x ∧ t'.indeps = t.indeps ∧
      t'.deps = t.deps ∧ t'.ops = t.ops := by
  obtain ⟨h1, h2, h3, h4⟩ := hr.tape hc e
  obtain ⟨v', e', l, f, hp⟩ := h1.zeroOrder h2 h3 h4 hx
  refine ⟨_, e', .mixed up conv s hr c w' hc e x e', hp.consistent, ?_, rfl, rfl, rfl⟩
  rw [Tape.x_eq hp.wf, f]
  congr 1
  apply List.ext_getElem (by simpa [Tape.numIndeps] using hx.symm)
  intro k hk hk'
  have hk1 : k < t.indeps.length := by simpa using hk
  have hne : ∀ op ∈ activeOps t.ops, op.vid ≠ t.indeps[k] := fun op hop he =>
    h1.vid_fresh op hop (he ▸ List.getElem_mem hk1)
  rw [List.getElem_map]
  show sweepZ t.ops _ t.indeps[k] = x[k]
  rw [sweepZ_other hne]
  exact scatterFn_get h1.indeps_nodup hk1 hk'

end mixed

/-! ### Non-vacuity: single and double precision -/

/-- Numbers of single (`false`) and double (`true`) precision, as reals. -/
def Num (_ : Bool) : Type := ℝ

noncomputable instance (p : Bool) : Flt (Num p) := binaryFlt (bif p then 53 else 24)

/-- Conversion to the registry. -/
def numUp (p : Bool) (a : Num p) : ℝ := a

/-- Conversion between the precisions. -/
noncomputable def numConv (p q : Bool) (a : Num p) : Num q := bif q then numUp p a else fl 24 (numUp p a)

/-- A state of a history with one context, which has one handle. -/
structure At (okv : ∀ p q, Num p → Num q → Prop) (i : Inner ℝ) (vs : List (Σ p, AFloat (Num p))) (s : MState Num ℝ) : Prop where
  steps : MSteps numUp numConv okv MState.init s
  handles : s.handles = [1]
  cell : s.world.cells 1 = some ⟨1, i⟩
  vars : s.vars = vs

section at_
variable {okv : ∀ p q, Num p → Num q → Prop} {i : Inner ℝ} {vs : List (Σ p, AFloat (Num p))} {s : MState Num ℝ}

theorem at_new : ∃ s, At okv (Inner.construct 1) [] s :=
  ⟨_, .tail (.refl _) (.new (by decide) rfl), rfl, rfl, rfl⟩

theorem At.scalar (h : At okv i vs s) (p : Bool) (v dv : Num p) : ∃ s', At okv i (⟨p, AFloat.new v dv⟩ :: vs) s' :=
  ⟨_, .tail h.steps (.scalar p v dv), h.handles, h.cell, by rw [← h.vars]⟩

theorem At.cast (h : At okv i vs s) {p : Bool} {a : AFloat (Num p)} (q : Bool) (ha : ⟨p, a⟩ ∈ vs)
    (hok : okv p q a.v (numConv p q a.v)) : ∃ s', At okv i (⟨q, AFloat.cast (numConv p q) a⟩ :: vs) s' :=
  ⟨_, .tail h.steps (.cast q (by rw [h.vars]; exact ha) hok), h.handles, h.cell, by rw [← h.vars]⟩

theorem At.setIndep (h : At okv i vs s) {p : Bool} {a : AFloat (Num p)} (ha : ⟨p, a⟩ ∈ vs) (hp : i.poisoned = false) :
    ∃ s', At okv (i.setIndep (numUp p a.v)).2 (⟨p, { a with ctx := some (i.cid, i.vals.length) }⟩ :: vs) s' := by
  have e : AContext.setIndepVia (numUp p) ⟨1⟩ a s.world = (.ok { a with ctx := some (i.cid, i.vals.length) },
    s.world.setCell 1 (some ⟨1, (i.setIndep (numUp p a.v)).2⟩)) := withLockF_ok h.cell hp rfl
  exact ⟨_, .tail h.steps (.setIndep (by simp [h.handles]) (by rw [h.vars]; exact ha) e), h.handles,
    World.setCell_same _ _ _, by rw [← h.vars]; rfl⟩

theorem At.op (h : At okv i vs s) {p : Bool} (o : OpCode) {a b : AFloat (Num p)} (ha : ⟨p, a⟩ ∈ vs) (hb : ⟨p, b⟩ ∈ vs)
    (har : o.isBinary = true) (ha1 : a.ctx.map Prod.fst = some 1) (hb1 : b.ctx.map Prod.fst = some 1)
    (hp : i.poisoned = false) :
    ∃ s', At okv (recW (numUp p) i o (opVal o a (some b)) a (some b)).2
      (⟨p, ⟨opVal o a (some b), opDval o a (some b), some (1, (recW (numUp p) i o (opVal o a (some b)) a (some b)).1)⟩⟩ :: vs) s' := by
  have hin : ∀ a : AFloat (Num p), a.ctx.map Prod.fst = some 1 → InCtx 1 a := by
    intro a ha c vid hc
    rw [hc] at ha
    injection ha
  have e := fromOpVia_live (up := numUp p) (o := o) (a := a) (b := some b) (w := s.world) har (hin a ha1)
    (by rintro b' ⟨⟩; exact hin b hb1) (Or.inl (by cases h : a.ctx <;> simp_all)) h.cell le_rfl hp
  exact ⟨_, .tail h.steps (.op (b := some b) (by rw [h.vars]; exact ha) (by rintro b' ⟨⟩; rw [h.vars]; exact hb) har e), h.handles,
    World.setCell_same _ _ _, by rw [← h.vars]; rfl⟩

theorem At.tape (h : At okv i vs s) (hp : i.poisoned = false) : AContext.tape ⟨1⟩ s.world = (.ok i.tape, s.world) :=
  tape_live h.cell hp

end at_

/-- A history: the square of an independent of single precision is converted to double precision and squared. -/
theorem mixed_history (v : ℝ) (okv : ∀ p q, Num p → Num q → Prop) (hok : okv false true (fl 24 (v * v)) (fl 24 (v * v))) :
    ∃ s : MState Num ℝ, MSteps numUp numConv okv MState.init s ∧ 1 ∈ s.handles ∧
      AContext.tape ⟨1⟩ s.world = (.ok ⟨[0], [], [⟨.Mul, 1, some 0, some 0⟩, ⟨.Mul, 2, some 1, some 1⟩],
        [v, fl 24 (v * v), fl 53 (fl 24 (v * v) * fl 24 (v * v))], true⟩, s.world) := by
  obtain ⟨_, h⟩ := at_new (okv := okv)
  obtain ⟨_, h⟩ := h.scalar false v (0 : ℝ)
  obtain ⟨_, h⟩ := h.setIndep (p := false) (a := AFloat.new v (0 : ℝ)) (by simp) rfl
  obtain ⟨_, h⟩ := h.op .Mul (p := false) (a := ⟨v, (0 : ℝ), some (1, 0)⟩) (b := ⟨v, (0 : ℝ), some (1, 0)⟩)
    (List.mem_cons_self ..) (List.mem_cons_self ..) rfl rfl rfl rfl
  obtain ⟨_, h⟩ := h.cast true (List.mem_cons_self ..) hok
  obtain ⟨s, h⟩ := h.op .Mul (p := true) (List.mem_cons_self ..) (List.mem_cons_self ..) rfl rfl rfl rfl
  exact ⟨s, h.steps, by simp [h.handles], h.tape rfl⟩

/-- Non-vacuity of `C66_mixed_single_assignment` and `C66_mixed_values`. -/
example (v : ℝ) : ∃ s : MState Num ℝ, s.ReachableExact numUp numConv ∧ 1 ∈ s.handles ∧
    AContext.tape ⟨1⟩ s.world = (.ok ⟨[0], [], [⟨.Mul, 1, some 0, some 0⟩, ⟨.Mul, 2, some 1, some 1⟩],
      [v, fl 24 (v * v), fl 53 (fl 24 (v * v) * fl 24 (v * v))], true⟩, s.world) := mixed_history v _ rfl

example (v : ℝ) : ∃ s : MState Num ℝ, s.Reachable numUp numConv ∧ 1 ∈ s.handles ∧
    AContext.tape ⟨1⟩ s.world = (.ok ⟨[0], [], [⟨.Mul, 1, some 0, some 0⟩, ⟨.Mul, 2, some 1, some 1⟩],
      [v, fl 24 (v * v), fl 53 (fl 24 (v * v) * fl 24 (v * v))], true⟩, s.world) := mixed_history v _ trivial

/-- Non-vacuity of `C66_mixed_replay`. -/
example (v : ℝ) : ∃ (s : MState Num ℝ) (t : Tape ℝ), s.Reachable numUp numConv ∧ 1 ∈ s.handles ∧
    AContext.tape ⟨1⟩ s.world = (.ok t, s.world) ∧ [v].length = t.numIndeps := by
  obtain ⟨s, h1, h2, h3⟩ := mixed_history v (fun _ _ _ _ => True) trivial
  exact ⟨s, _, h1, h2, h3, rfl⟩

theorem fl_odd : fl 53 16777217 = 16777217 ∧ fl 24 16777217 ≠ 16777217 := by
  constructor
  · have := fl_int (p := 53) (by norm_num) (m := 16777217) (by norm_num [abs_of_pos])
    exact_mod_cast this
  · have hlog : Int.log 2 |(16777217 : ℝ)| = 24 := by
      have h1 : |(16777217 : ℝ)| = ((16777217 : ℕ) : ℝ) := by norm_num [abs_of_pos]
      rw [h1, Int.log_natCast]
      have : Nat.log 2 16777217 = 24 := (Nat.log_eq_iff (by norm_num)).mpr (by norm_num)
      rw [this]; rfl
    unfold fl
    simp only [hlog]
    generalize round ((16777217 : ℝ) * 2 ^ ((24 : ℕ) - 1 - 24 : ℤ)) = k
    intro h
    have h2 : (k : ℝ) * 2 = 16777217 := by
      rw [← h]; norm_num
    have h3 : k * 2 = 16777217 := by exact_mod_cast h2
    omega

/-- C66: after a narrowing conversion a variable no longer holds the number that is recorded for it; nothing is recorded
for the conversion. (`16777217 = 2²⁴ + 1` is a number of double but not of single precision.) -/
theorem C66_narrowing_counterexample : ∃ (s : MState Num ℝ) (a : AFloat (Num false)) (t : Tape ℝ),
    s.Reachable numUp numConv ∧ 1 ∈ s.handles ∧ AContext.tape ⟨1⟩ s.world = (.ok t, s.world) ∧ ⟨false, a⟩ ∈ s.vars ∧
    a.ctx = some (1, 0) ∧ t.vals[0]? = some (fl 53 16777217) ∧ t.vals[0]? ≠ some (numUp false a.v) := by
  obtain ⟨_, h⟩ := at_new (okv := fun _ _ _ _ => True)
  obtain ⟨_, h⟩ := h.scalar true (16777217 : ℝ) (0 : ℝ)
  obtain ⟨_, h⟩ := h.setIndep (p := true) (List.mem_cons_self ..) rfl
  obtain ⟨s, h⟩ := h.cast false (List.mem_cons_self ..) trivial
  refine ⟨s, _, _, h.steps, by simp [h.handles], h.tape rfl, by rw [h.vars]; exact List.mem_cons_self .., rfl, ?_, ?_⟩
  · rw [fl_odd.1]; rfl
  · show some (16777217 : ℝ) ≠ some (fl 24 16777217)
    intro hc
    injection hc with hc
    exact fl_odd.2 hc.symm

theorem log_third : Int.log 2 |(1 / 3 : ℝ)| = -2 := by
  have h0 : |(1 / 3 : ℝ)| = 1 / 3 := abs_of_pos (by norm_num)
  rw [h0]
  have h1 : (2 : ℝ) ^ (Int.log 2 (1 / 3 : ℝ)) ≤ 1 / 3 := by
    have := Int.zpow_log_le_self (R := ℝ) (b := 2) (r := 1 / 3) (by norm_num) (by norm_num)
    exact_mod_cast this
  have h2 : (1 / 3 : ℝ) < 2 ^ (Int.log 2 (1 / 3 : ℝ) + 1) := by
    have := Int.lt_zpow_succ_log_self (R := ℝ) (b := 2) (by norm_num) (1 / 3)
    exact_mod_cast this
  by_contra hne
  rcases lt_or_gt_of_ne hne with h | h
  · have h3 : (2 : ℝ) ^ (Int.log 2 (1 / 3 : ℝ) + 1) ≤ 2 ^ (-2 : ℤ) := zpow_le_zpow_right₀ (by norm_num) (by omega)
    norm_num at h3 h2
    linarith
  · have h3 : (2 : ℝ) ^ (-1 : ℤ) ≤ 2 ^ (Int.log 2 (1 / 3 : ℝ)) := zpow_le_zpow_right₀ (by norm_num) (by omega)
    norm_num at h3 h1
    linarith

/-- One third is not the same number in single and in double precision. -/
theorem fl_third : fl 24 (1 / 3) ≠ fl 53 (1 / 3) := by
  intro heq
  have h1 := fl_error 53 (1 / 3)
  rw [← heq] at h1
  unfold Approximates fl at h1
  simp only [log_third] at h1
  generalize round ((1 / 3 : ℝ) * 2 ^ ((24 : ℕ) - 1 - -2 : ℤ)) = k at h1
  have h2 : (1 : ℝ) ≤ |3 * (k : ℝ) - 2 ^ 25| := by
    have h3 : (3 * k - 2 ^ 25 : ℤ) ≠ 0 := by omega
    have h4 : (1 : ℤ) ≤ |3 * k - 2 ^ 25| := Int.one_le_abs h3
    exact_mod_cast h4
  have h5 : (k : ℝ) * 2 ^ (-((24 : ℕ) - 1 - -2 : ℤ)) - 1 / 3 = (3 * (k : ℝ) - 2 ^ 25) * (1 / (3 * 2 ^ 25)) := by
    norm_num
    ring
  rw [h5, abs_mul] at h1
  norm_num at h1 h2
  linarith

/-! ## Consequences for replay -/

/-- `x / y`. -/
noncomputable def divF : Func ℝ := Func.advFn 2 1 fun _ => .op .Div (.var 0) (some (.var 1)) fun i _ => .ret [.var i]

/-- The tape of `x / y` at `(1, 3)` with the quotient `q`. -/
def divTape (q : ℝ) : Tape ℝ := ⟨[0, 1], [2], [⟨.Div, 2, some 0, some 1⟩], [1, 3, q], true⟩

/-- C66: `zero_order` computes in double precision. Replaying a tape that was recorded in single precision at the very
point of the recording may change its values. -/
theorem C66_replay_counterexample : ∃ (f : Func ℝ) (x : List ℝ) (t t₁ : Tape ℝ),
    (@Func.tape ℝ (binaryFlt 24) f x HState.init.world).1 = .ok t ∧ t.x = .ok x ∧
    @Tape.zeroOrder ℝ (binaryFlt 53) t x = .ok t₁ ∧ t₁ ≠ t := by
  refine ⟨divF, [1, 3], divTape (fl 24 (1 / 3)), divTape (fl 53 (1 / 3)), by kernel_rfl, rfl, by kernel_rfl, ?_⟩
  intro h
  simp [divTape] at h
  exact fl_third (by simpa using h.symm)

/-- C66: the change is small (the hypotheses are those of C65, see the example there). A tape recorded in an arithmetic `A` and replayed at the same point in an arithmetic `B`
has the same operations and values that differ by at most `K u`. -/
theorem C66_replay_error (f : Func ℝ) {n : ℕ} {x : Fin n → ℝ} {w w' : World ℝ} {t : Tape ℝ} (hw : w.nextId < usizeMax)
    (ht : f.tape (List.ofFn x) w = (.ok t, w')) (hs : f.Along piecewiseSmooth w (duals x 0)) (C : ℝ) :
    ∃ K u₀, 0 < u₀ ∧ ∀ (A B : Flt ℝ) (u : ℝ) (x' : Fin n → ℝ), Floating A u → Floating B u → u ≤ u₀ →
      (∀ j, |x j - x' j| ≤ C * u) → ∃ t' t₁, (@Func.tape ℝ A f (List.ofFn x') w).1 = .ok t' ∧
        @Tape.zeroOrder ℝ B t' (List.ofFn x') = .ok t₁ ∧ t'.Close (K * u) t₁ := by
  obtain ⟨K1, u₁, h1, h2⟩ := C65_recording f hw ht hs C
  have hx := (C03_tape_stores_evaluation f _ hw ht).2.1
  have hrec : Recorded t := .func f _ w w' hw ht
  obtain ⟨K2, u₂, k1, k2⟩ := C65_replay hrec (C05_replay_at_own_point hrec.proper hx) (C65_domain f hw ht hs) (max K1 C)
  refine ⟨K1 + K2, min u₁ u₂, lt_min h1 k1, fun A B u x' hA hB hu hxx => ?_⟩
  obtain ⟨t', q1, q2, q5⟩ := h2 A u x' hA (hu.trans (min_le_left _ _)) hxx
  obtain ⟨t₁, q3, q4, -⟩ := k2 B u t' (List.ofFn x') hB (hu.trans (min_le_right _ _))
    (Close.mono (mul_le_mul_of_nonneg_right (le_max_left _ _) hA.nonneg) q2) q5
    (by
      refine Within.mono (mul_le_mul_of_nonneg_right (le_max_right K1 C) hA.nonneg) ?_
      unfold Within
      rw [List.forall₂_iff_get]
      refine ⟨by simp, fun i h1 h2 => ?_⟩
      simp only [List.get_ofFn]
      exact hxx _)
  refine ⟨t', t₁, q1, q3, q4.indeps.trans q2.indeps.symm, q4.deps.trans q2.deps.symm, q4.ops.trans q2.ops.symm,
    q4.mutable.trans q2.mutable.symm, ?_⟩
  have hv : ∀ {a b c : List ℝ}, Within (K1 * u) a b → Within (K2 * u) a c → Within ((K1 + K2) * u) b c := by
    intro a b c h1 h2
    induction h1 generalizing c with
    | nil => cases h2; exact .nil
    | cons hab _ ih =>
      cases h2 with
      | cons hac h2 =>
        refine .cons ?_ (ih h2)
        rw [add_mul]
        exact (abs_sub_le _ _ _).trans (add_le_add ((abs_sub_comm _ _).trans_le hab) hac)
  exact hv q2.vals q4.vals

/-- C66: gradients of functions that are recorded in an arithmetic `A` and swept in an arithmetic `B`. -/
theorem C66_adjoint (f : Func ℝ) {n : ℕ} {x : Fin n → ℝ} {w w' : World ℝ} {t : Tape ℝ} (hw : w.nextId < usizeMax)
    (ht : f.tape (List.ofFn x) w = (.ok t, w')) (hs : f.Along piecewiseSmooth w (duals x 0))
    (ha : t.AbsFree) {ybar xbar : List ℝ}
    (he : t.firstOrderReverse ybar = .ok xbar) (hy : ybar.length = t.numDeps) (C : ℝ) :
    ∃ K u₀, 0 < u₀ ∧ ∀ (A B : Flt ℝ) (u : ℝ) (x' : Fin n → ℝ) (ybar' : List ℝ), Floating A u → Floating B u → u ≤ u₀ →
      (∀ j, |x j - x' j| ≤ C * u) → Within (C * u) ybar ybar' →
      ∃ t' xbar', (@Func.tape ℝ A f (List.ofFn x') w).1 = .ok t' ∧ @Tape.firstOrderReverse ℝ B t' ybar' = .ok xbar' ∧
        Within (K * u) xbar xbar' := by
  obtain ⟨K1, u₁, h1, h2⟩ := C65_recording f hw ht hs C
  obtain ⟨K2, u₂, k1, k2⟩ := C65_reverse (.func f _ w w' hw ht) ha (C65_domain f hw ht hs) he hy (max K1 C)
  refine ⟨K2, min u₁ u₂, lt_min h1 k1, fun A B u x' ybar' hA hB hu hx hyb => ?_⟩
  obtain ⟨t', q1, q2, q5⟩ := h2 A u x' hA (hu.trans (min_le_left _ _)) hx
  obtain ⟨xbar', q3, q4⟩ := k2 B u t' ybar' hB (hu.trans (min_le_right _ _))
    (Close.mono (mul_le_mul_of_nonneg_right (le_max_left _ _) hA.nonneg) q2) q5
    (Within.mono (mul_le_mul_of_nonneg_right (le_max_right _ _) hA.nonneg) hyb)
  exact ⟨t', xbar', q1, q3, q4⟩

end Adv.Props
