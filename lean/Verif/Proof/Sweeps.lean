import Verif.Proof.TapeOf

/-!
# Sweeps over single-assignment tapes

Sweeps are the unique solutions of the equations of a tape; replay is history independent.
-/

set_option linter.unusedSectionVars false

namespace Adv
open scoped Adv

variable {S : Type} [Flt S] {α : Type}

/-- Generic sweep: operation `op` writes `g op f` to its result id (or nothing). -/
def sweepG (g : Operation → (Nat → α) → Option α) (ops : List Operation) (f : Nat → α) : Nat → α :=
  ops.foldl (fun f op => match g op f with
    | some x => upd f op.vid x
    | none => f) f

/-- The step only looks at its operands and ignores `Nop`. -/
structure LocalG (g : Operation → (Nat → α) → Option α) : Prop where
  loc : ∀ op f f', f op.a1 = f' op.a1 → f op.a2 = f' op.a2 → g op f = g op f'
  nop : ∀ op f, op.opcode = .Nop → g op f = none

/-- Single-assignment list of operations. -/
structure SSA (ops : List Operation) : Prop where
  sorted : ((activeOps ops).map Operation.vid).Pairwise (· < ·)
  a1_lt : ∀ op ∈ activeOps ops, op.opcode.computes = true → op.a1 < op.vid
  a2_lt : ∀ op ∈ activeOps ops, op.opcode.computes = true → op.a2 < op.vid

theorem sweepG_append (g : Operation → (Nat → α) → Option α) (l m : List Operation) (f : Nat → α) :
    sweepG g (l ++ m) f = sweepG g m (sweepG g l f) := by simp [sweepG]

theorem sweepG_cons (g : Operation → (Nat → α) → Option α) (op : Operation) (m : List Operation) (f : Nat → α) :
    sweepG g (op :: m) f = sweepG g m (match g op f with
    | some x => upd f op.vid x
    | none => f) := by simp [sweepG]

theorem sweepG_other {g : Operation → (Nat → α) → Option α} (hg : LocalG g) {ops : List Operation}
    {k : Nat} (h : ∀ op ∈ activeOps ops, op.vid ≠ k) (f : Nat → α) : sweepG g ops f k = f k := by
  induction ops generalizing f with
  | nil => rfl
  | cons op ops ih =>
    rw [sweepG_cons, ih]
    · rcases hx : g op f with _ | x
      · rfl
      · have hne : op.opcode ≠ .Nop := by
          intro h0; rw [hg.nop op f h0] at hx; cases hx
        have : op.vid ≠ k := h op (by simp [mem_activeOps, hne])
        exact upd_ne (fun h => this h.symm)
    · intro o ho
      rw [mem_activeOps] at ho
      exact h o (by rw [mem_activeOps]; exact ⟨by simp [ho.1], ho.2⟩)

theorem activeOps_append (l m : List Operation) : activeOps (l ++ m) = activeOps l ++ activeOps m := by
  simp [activeOps]

theorem activeOps_cons {op : Operation} (h : op.opcode ≠ .Nop) (m : List Operation) :
    activeOps (op :: m) = op :: activeOps m := by simp [activeOps, h]

/-- The result of a sweep satisfies the equation of each operation. -/
theorem sweepG_eq {g : Operation → (Nat → α) → Option α} (hg : LocalG g) {ops : List Operation}
    (hs : SSA ops) (hw : ∀ op f, op.opcode.computes = false → ∀ f', g op f = g op f')
    (f : Nat → α) {op : Operation} (hop : op ∈ ops) (hne : op.opcode ≠ .Nop) :
    sweepG g ops f op.vid = (g op (sweepG g ops f)).getD (f op.vid) := by
  obtain ⟨l, m, rfl⟩ := List.append_of_mem hop
  have hsort := hs.sorted
  rw [activeOps_append, activeOps_cons hne, List.map_append, List.map_cons, List.pairwise_append] at hsort
  obtain ⟨-, h2, h3⟩ := hsort
  rw [List.pairwise_cons] at h2
  have hm : ∀ o ∈ activeOps m, op.vid < o.vid := fun o ho => h2.1 _ (List.mem_map.mpr ⟨o, ho, rfl⟩)
  have hl : ∀ o ∈ activeOps l, o.vid < op.vid := fun o ho =>
    h3 _ (List.mem_map.mpr ⟨o, ho, rfl⟩) _ (by simp)
  have hmem : op ∈ activeOps (l ++ op :: m) := by simp [mem_activeOps, hne]
  rw [sweepG_append, sweepG_cons]
  have hpost : ∀ k, k ≤ op.vid → ∀ f', sweepG g m f' k = f' k := by
    intro k hk f'
    exact sweepG_other hg (fun o ho => by have := hm o ho; omega) f'
  have hg2 : g op (sweepG g (op :: m) (sweepG g l f)) = g op (sweepG g l f) := by
    by_cases hc : op.opcode.computes = true
    · have h1 := hs.a1_lt op hmem hc
      have h2 := hs.a2_lt op hmem hc
      apply hg.loc
      · rw [sweepG_cons, hpost _ (by omega)]
        rcases g op (sweepG g l f) with _ | x
        · rfl
        · exact upd_ne (by omega)
      · rw [sweepG_cons, hpost _ (by omega)]
        rcases g op (sweepG g l f) with _ | x
        · rfl
        · exact upd_ne (by omega)
    · exact hw op _ (by simpa using hc) _
  rw [sweepG_cons] at hg2
  rw [hg2, hpost _ (Nat.le_refl _)]
  rcases hx : g op (sweepG g l f) with _ | x
  · simp only [Option.getD_none]
    exact sweepG_other hg (fun o ho => by have := hl o ho; omega) f
  · simp

/-- The writes of `zero_order`. -/
def gZ (op : Operation) (f : Nat → S) : Option S :=
  if op.opcode.computes then some (zfun op.opcode (f op.a1) (f op.a2)) else none

/-- The writes of `first_order`. -/
def gF (v : Nat → S) (op : Operation) (f : Nat → S) : Option S :=
  if op.opcode.computes then some (ffun op.opcode (v op.a1) (v op.a2) (f op.a1) (f op.a2))
  else if op.opcode = .Const then some Flt.zero else none

theorem sweepZ_eq_sweepG (ops : List Operation) (f : Nat → S) : sweepZ ops f = sweepG gZ ops f := by
  unfold sweepZ sweepG
  congr 1
  funext f op
  unfold stepZ gZ
  by_cases h : op.opcode.computes = true <;> simp [h]

theorem sweepF_eq_sweepG (v : Nat → S) (ops : List Operation) (f : Nat → S) :
    sweepF v ops f = sweepG (gF v) ops f := by
  unfold sweepF sweepG
  congr 1
  funext f op
  unfold stepF gF
  by_cases h : op.opcode.computes = true
  · simp only [h, if_true]
  · simp only [h]
    by_cases h' : op.opcode = .Const
    · simp only [if_pos h']; rfl
    · simp only [if_neg h']; rfl

theorem gZ_local : LocalG (gZ (S := S)) := by
  constructor
  · intro op f f' h1 h2; simp only [gZ, h1, h2]
  · intro op f h; simp [gZ, h, OpCode.computes, OpCode.isBinary, OpCode.isUnary]

theorem gF_local (v : Nat → S) : LocalG (gF v) := by
  constructor
  · intro op f f' h1 h2; simp only [gF, h1, h2]
  · intro op f h; simp [gF, h, OpCode.computes, OpCode.isBinary, OpCode.isUnary]

theorem sweepZ_other {ops : List Operation} {k : Nat} (h : ∀ op ∈ activeOps ops, op.vid ≠ k) (f : Nat → S) :
    sweepZ ops f k = f k := by rw [sweepZ_eq_sweepG]; exact sweepG_other gZ_local h f

theorem sweepF_other {v : Nat → S} {ops : List Operation} {k : Nat}
    (h : ∀ op ∈ activeOps ops, op.vid ≠ k) (f : Nat → S) :
    sweepF v ops f k = f k := by rw [sweepF_eq_sweepG]; exact sweepG_other (gF_local v) h f

theorem sweepZ_computes {ops : List Operation} (hs : SSA ops) (f : Nat → S) {op : Operation}
    (hop : op ∈ ops) (hc : op.opcode.computes = true) :
    sweepZ ops f op.vid = zfun op.opcode (sweepZ ops f op.a1) (sweepZ ops f op.a2) := by
  have hne := ((OpCode.computes_iff _).mp hc).1
  rw [sweepZ_eq_sweepG, sweepG_eq gZ_local hs (by intro op f h f'; simp [gZ, h]) f hop hne]
  simp [gZ, hc]

theorem sweepZ_const {ops : List Operation} (hs : SSA ops) (f : Nat → S) {op : Operation}
    (hop : op ∈ ops) (hc : op.opcode = .Const) : sweepZ ops f op.vid = f op.vid := by
  rw [sweepZ_eq_sweepG, sweepG_eq gZ_local hs (by intro op f h f'; simp [gZ, h]) f hop (by simp [hc])]
  simp [gZ, hc, OpCode.computes, OpCode.isBinary, OpCode.isUnary]

theorem sweepF_computes {v : Nat → S} {ops : List Operation} (hs : SSA ops) (f : Nat → S) {op : Operation}
    (hop : op ∈ ops) (hc : op.opcode.computes = true) :
    sweepF v ops f op.vid =
      ffun op.opcode (v op.a1) (v op.a2) (sweepF v ops f op.a1) (sweepF v ops f op.a2) := by
  have hne := ((OpCode.computes_iff _).mp hc).1
  rw [sweepF_eq_sweepG, sweepG_eq (gF_local v) hs (by intro op f h f'; simp [gF, h]) f hop hne]
  simp [gF, hc]

theorem sweepF_const {v : Nat → S} {ops : List Operation} (hs : SSA ops) (f : Nat → S) {op : Operation}
    (hop : op ∈ ops) (hc : op.opcode = .Const) : sweepF v ops f op.vid = Flt.zero := by
  rw [sweepF_eq_sweepG, sweepG_eq (gF_local v) hs (by intro op f h f'; simp [gF, h]) f hop (by simp [hc])]
  simp [gF, hc, OpCode.computes, OpCode.isBinary, OpCode.isUnary]

theorem Tape.WF.ssa {t : Tape S} (h : t.WF) : SSA t.ops := by
  refine ⟨h.sorted, ?_, ?_⟩
  · intro op hop hc
    have hin := h.inB op (mem_activeOps.mp hop).1
    rcases hin.cases with h0 | ⟨h0, h1⟩ | ⟨h0, h1, h2, h3, h4, h5⟩ | ⟨h0, h1, h2, h3, h3', h4⟩
    · exact absurd h0 (mem_activeOps.mp hop).2
    · simp [h0, OpCode.computes, OpCode.isBinary, OpCode.isUnary] at hc
    · exact h.args_lt op hop _ (by simp [Operation.args, h2])
    · exact h.args_lt op hop _ (by simp [Operation.args, h2])
  · intro op hop hc
    have hin := h.inB op (mem_activeOps.mp hop).1
    rcases hin.cases with h0 | ⟨h0, h1⟩ | ⟨h0, h1, h2, h3, h4, h5⟩ | ⟨h0, h1, h2, h3, h3', h4⟩
    · exact absurd h0 (mem_activeOps.mp hop).2
    · simp [h0, OpCode.computes, OpCode.isBinary, OpCode.isUnary] at hc
    · exact h.args_lt op hop _ (by simp [Operation.args, h2, h3])
    · rw [h3']; exact h.args_lt op hop _ (by simp [Operation.args, h2])

/-- Consistency of a well formed tape as equations. -/
theorem Tape.consistent_iff {t : Tape S} (h : t.WF) : t.Consistent ↔
    ∀ op ∈ t.ops, op.opcode.computes = true →
      fn t.vals op.vid = zfun op.opcode (fn t.vals op.a1) (fn t.vals op.a2) := by
  constructor
  · intro hc op hop; exact (zeroOrder_fix_iff (h.inB op hop)).mp (hc op hop)
  · intro hc op hop; exact (zeroOrder_fix_iff (h.inB op hop)).mpr (hc op hop)

theorem TapeOf.proper {f : Func S} {x : List S} {t : Tape S} (h : TapeOf f x t) : t.Proper :=
  ⟨h.wf, h.complete, h.consistent, h.noNop, h.mutable⟩

theorem Inner.Good.proper {i : Inner S} (h : i.Good) : i.tape.Proper :=
  ⟨h.wf, h.complete, h.consistent, h.noNop, rfl⟩

/-- Changing the values does not affect well-formedness. -/
theorem Tape.WF.withVals {t : Tape S} (h : t.WF) {v : List S} (hl : v.length = t.vals.length) :
    ({ t with vals := v } : Tape S).WF := by
  obtain ⟨w1, w2, w3, w4, w5, w6, w7, w8⟩ := h
  exact ⟨by simpa [hl] using w1, by simpa [hl] using w2, w3, w4, by simpa [hl] using w5, w6, w7, w8⟩

/-- Replay succeeds and yields a proper tape, whatever the values were; the new values are the sweep. -/
theorem Tape.WF.zeroOrder {t : Tape S} (h : t.WF) (hc : t.Complete) (hn : ∀ op ∈ t.ops, op.opcode ≠ .Nop)
    (hm : t.mutable = true) {x : List S} (hx : x.length = t.indeps.length) :
    ∃ v', t.zeroOrder x = .ok { t with vals := v' } ∧ v'.length = t.vals.length ∧
      fn v' = sweepZ t.ops (scatterFn t.indeps x (fn t.vals)) ∧ ({ t with vals := v' } : Tape S).Proper := by
  obtain ⟨v', e, l, f⟩ := Tape.zeroOrder_eq h hx hm
  have hwf := h.withVals l
  refine ⟨v', e, l, f, hwf, ?_, ?_, hn, hm⟩
  · intro i hi; exact hc i (by simpa [l] using hi)
  · rw [Tape.consistent_iff hwf]
    intro op hop hc
    simp only [f]
    exact sweepZ_computes h.ssa _ hop hc

theorem Tape.Proper.zeroOrder {t : Tape S} (h : t.Proper) {x : List S} (hx : x.length = t.indeps.length) :
    ∃ v', t.zeroOrder x = .ok { t with vals := v' } ∧ v'.length = t.vals.length ∧
      fn v' = sweepZ t.ops (scatterFn t.indeps x (fn t.vals)) ∧ ({ t with vals := v' } : Tape S).Proper :=
  h.wf.zeroOrder h.complete h.noNop h.mutable hx

theorem Tape.zeroOrder_length {t t' : Tape S} {x : List S} (e : t.zeroOrder x = .ok t') :
    x.length = t.indeps.length := by
  by_contra hx
  simp [Tape.zeroOrder, Tape.numIndeps, assertR, hx] at e
  cases e

/-- A tape is proper up to the values: structure only. -/
theorem replay_values_eq {t : Tape S} (h : t.Proper) {f g : Nat → S}
    (hind : ∀ k ∈ t.indeps, f k = g k)
    (hconst : ∀ op ∈ t.ops, op.opcode = .Const → f op.vid = g op.vid) :
    ∀ k < t.vals.length, sweepZ t.ops f k = sweepZ t.ops g k := by
  intro k
  induction k using Nat.strongRecOn with
  | _ k ih =>
    intro hk
    rcases h.complete k hk with hi | ⟨op, hop, rfl⟩
    · have hne : ∀ op ∈ activeOps t.ops, op.vid ≠ k := by
        intro op hop he; exact h.wf.vid_fresh op hop (he ▸ hi)
      rw [sweepZ_other hne, sweepZ_other hne, hind k hi]
    · have hop' := (mem_activeOps.mp hop).1
      by_cases hc : op.opcode.computes = true
      · have h1 := h.wf.ssa.a1_lt op hop hc
        have h2 := h.wf.ssa.a2_lt op hop hc
        rw [sweepZ_computes h.wf.ssa _ hop' hc, sweepZ_computes h.wf.ssa _ hop' hc,
          ih _ h1 (by omega), ih _ h2 (by omega)]
      · have hc' : op.opcode = .Const := by
          by_contra hne
          exact hc ((OpCode.computes_iff _).mpr ⟨(mem_activeOps.mp hop).2, hne⟩)
        rw [sweepZ_const h.wf.ssa _ hop' hc', sweepZ_const h.wf.ssa _ hop' hc', hconst op hop' hc']

theorem scatterFn_mem_congr {ids : List Nat} {xs : List α} {f g : Nat → α} (hl : ids.length ≤ xs.length)
    {k : Nat} (hk : k ∈ ids) : scatterFn ids xs f k = scatterFn ids xs g k := by
  induction ids generalizing xs f g with
  | nil => simp at hk
  | cons i ids ih =>
    cases xs with
    | nil => simp at hl
    | cons x xs =>
      simp only [scatterFn]
      by_cases hk' : k ∈ ids
      · exact ih (by simpa using hl) hk'
      · have : k = i := by simpa [hk'] using hk
        subst this
        rw [scatterFn_not_mem hk', scatterFn_not_mem hk', upd_same, upd_same]

/-- Replays only depend on the last argument. -/
theorem Tape.Proper.zeroOrder_zeroOrder {t : Tape S} (h : t.Proper) {x x' : List S}
    (hx : x.length = t.indeps.length) {t' : Tape S} (he : t.zeroOrder x' = .ok t') :
    t'.zeroOrder x = t.zeroOrder x := by
  have hx' : x'.length = t.indeps.length := by
    by_contra hne
    simp [Tape.zeroOrder, Tape.numIndeps, assertR, hne] at he
    exact absurd he (by intro h; cases h)
  obtain ⟨v', e', l', f', hp'⟩ := h.zeroOrder hx'
  rw [e'] at he
  have ht' : t' = { t with vals := v' } := by injection he with he; exact he.symm
  subst ht'
  obtain ⟨v1, e1, l1, f1, -⟩ := hp'.zeroOrder (x := x) hx
  obtain ⟨v2, e2, l2, f2, -⟩ := h.zeroOrder hx
  rw [e1, e2]
  simp only
  have : v1 = v2 := by
    apply fn_ext
    · simp only at l1; omega
    · intro k hk
      rw [f1, f2]
      refine replay_values_eq h ?_ ?_ k (by simp only at l1; omega)
      · intro k hk; exact scatterFn_mem_congr (Nat.le_of_eq hx.symm) hk
      · intro op hop hc
        have hni : op.vid ∉ t.indeps := h.wf.vid_fresh op (by simp [mem_activeOps, hop, hc])
        simp only
        rw [scatterFn_not_mem hni, scatterFn_not_mem hni, f', sweepZ_const h.wf.ssa _ hop hc,
          scatterFn_not_mem hni]
  rw [this]

theorem scatterFn_self {ids : List Nat} {f : Nat → α} : scatterFn ids (ids.map f) f = f := by
  induction ids with
  | nil => rfl
  | cons i ids ih =>
    rw [List.map_cons, scatterFn]
    have : upd f i (f i) = f := by funext j; by_cases h : j = i <;> simp [upd, h]
    rw [this, ih]

theorem sweepZ_fix {ops : List Operation} {f : Nat → S} (h : ∀ op ∈ ops, op.opcode.computes = true →
    f op.vid = zfun op.opcode (f op.a1) (f op.a2)) : sweepZ ops f = f := by
  induction ops with
  | nil => rfl
  | cons op ops ih =>
    have : stepZ op f = f := by
      unfold stepZ
      split
      · rename_i hc
        funext j
        by_cases hj : j = op.vid
        · subst hj; rw [upd_same, h op (by simp) hc]
        · rw [upd_ne hj]
      · rfl
    show sweepZ ops (stepZ op f) = f
    rw [this]; exact ih (fun o ho => h o (by simp [ho]))

/-- Replaying a proper tape at its own inputs restores it. -/
theorem Tape.Proper.zeroOrder_self {t : Tape S} (h : t.Proper) :
    t.zeroOrder (t.indeps.map (fn t.vals)) = .ok t := by
  obtain ⟨v', e, l, f, -⟩ := h.zeroOrder (x := t.indeps.map (fn t.vals)) (by simp)
  rw [e, scatterFn_self, sweepZ_fix ((Tape.consistent_iff h.wf).mp h.consistent)] at *
  have : v' = t.vals := fn_ext l (fun k _ => by rw [f])
  subst this; rfl

/-! ## Replay of straight-line functions -/

/-- Evaluation at a second point alongside. -/
def zeroSh : Shadow S S where
  cst := fun v => v
  op := fun o _ _ a b => zfun o a b

theorem zeroSh_closed : (zeroSh : Shadow S S).ConstClosed := by intro _ _ _ _; rfl

theorem Prog.runS_zero (p : Prog S) (h : p.StraightLine) {ss : List (S × S)} {ts : List (S × Unit)}
    (hm : List.Forall₂ (fun s t => s.2 = t.1) ss ts) :
    ResRel (List.Forall₂ (fun s t => s.2 = t.1)) (p.runS zeroSh ss) (p.runS unitSh ts) := by
  have hget : ∀ {ss : List (S × S)} {ts : List (S × Unit)},
      List.Forall₂ (fun s t => s.2 = t.1) ss ts → ∀ a : Arg S,
      ResRel (fun s t => s.2 = t.1) (a.getS zeroSh ss) (a.getS unitSh ts) := by
    intro ss ts h a
    cases a with
    | var k =>
      have := getElem?_forall₂ h k
      simp only [Arg.getS]
      rcases hk : ss[k]? with _ | x
      · rw [hk] at this; simp only at this; rw [this]; exact .error _
      · rw [hk] at this
        obtain ⟨s, h1, h2⟩ := this
        rw [h1]; exact .ok h2
    | lit v => exact .ok rfl
  induction p generalizing ss ts with
  | ret outs => exact mapM_forall₂ outs (fun a _ => hget hm a)
  | panic => exact .error _
  | op o a b k ih =>
    simp only [Prog.runS]
    have h1 := hget hm a
    generalize a.getS zeroSh ss = x at h1
    generalize a.getS unitSh ts = y at h1
    cases h1 with
    | error e => exact .error e
    | @ok x y hxy =>
      have h2 : ResRel (Option.Rel (fun s t => s.2 = t.1)) (Arg.getSOpt zeroSh ss b)
          (Arg.getSOpt unitSh ts b) := by
        cases b with
        | none => exact .ok .none
        | some b =>
          have := hget hm b
          simp only [Arg.getSOpt]
          generalize b.getS zeroSh ss = u at this
          generalize b.getS unitSh ts = v at this
          cases this with
          | error e => exact .error e
          | ok h => exact .ok (.some h)
      generalize Arg.getSOpt zeroSh ss b = u at h2
      generalize Arg.getSOpt unitSh ts b = v at h2
      cases h2 with
      | error e => exact .error e
      | @ok u v huv =>
        simp only [bind_ok_eq]
        have hok : arityOk o u = arityOk o v := by cases huv <;> rfl
        rw [← hok]
        by_cases hc : arityOk o u = true
        · simp only [hc, if_true]
          rw [hm.length_eq, h.1 _ (zfun o x.1 (u.getD x).1) (zfun o y.1 (v.getD y).1)]
          refine ih _ _ (h.2 _ _) (List.rel_append hm (.cons ?_ .nil))
          cases huv with
          | none => simp [zeroSh, hxy]
          | some h => simp [zeroSh, hxy, h]
        · simp only [hc]; exact .error _

theorem runProgsS_zero (ps : List (List S → Prog S)) (h : ∀ p ∈ ps, (∀ xs, (p xs).StraightLine) ∧
      ∀ xs xs' : List S, xs.length = xs'.length → p xs = p xs')
    {ss : List (S × S)} {ts : List (S × Unit)} (hm : List.Forall₂ (fun s t => s.2 = t.1) ss ts) :
    ResRel (List.Forall₂ (fun s t => s.2 = t.1)) (runProgsS zeroSh ps ss) (runProgsS unitSh ps ts) := by
  induction ps generalizing ss ts with
  | nil => exact .ok hm
  | cons p ps ih =>
    simp only [runProgsS]
    rw [(h p (by simp)).2 (ss.map Prod.fst) (ts.map Prod.fst) (by simp [hm.length_eq])]
    have h1 := Prog.runS_zero (p (ts.map Prod.fst)) ((h p (by simp)).1 _) hm
    generalize (p (ts.map Prod.fst)).runS zeroSh ss = x at h1
    generalize (p (ts.map Prod.fst)).runS unitSh ts = y at h1
    cases h1 with
    | error e => exact .error e
    | ok h' => exact ih (fun q hq => h q (by simp [hq])) h'

theorem forall₂_snd_map {β : Type} {ss : List (S × S)} {ts : List (S × β)}
    (h : List.Forall₂ (fun s t => s.2 = t.1) ss ts) : ss.map Prod.snd = ts.map Prod.fst := by
  induction h with
  | nil => rfl
  | cons h _ ih => simp [h, ih]

/-- Replay of a straight-line function evaluates it at the new point. -/
theorem TapeOf.zeroOrder_eval {f : Func S} {x0 x1 : List S} {t : Tape S} (h : TapeOf f x0 t)
    (hsl : f.StraightLine) (hlen : x1.length = x0.length) :
    ∃ t', t.zeroOrder x1 = .ok t' ∧ t'.Proper ∧ t'.x = .ok x1 ∧ f.evalV x1 = t'.y := by
  have hl : x1.length = t.indeps.length := by rw [h.indeps, List.length_range, hlen]
  obtain ⟨v', e, l, hf, hp⟩ := h.proper.zeroOrder hl
  refine ⟨_, e, hp, ?_, ?_⟩
  · rw [Tape.x_eq hp.wf]
    simp only [hf]
    congr 1
    apply List.ext_getElem
    · simp [hl]
    · intro k h1 h2
      rw [List.getElem_map]
      have hk : k < t.indeps.length := by simpa using h1
      have hne : ∀ op ∈ activeOps t.ops, op.vid ≠ t.indeps[k] := by
        intro op hop he; exact h.wf.vid_fresh op hop (he ▸ List.getElem_mem hk)
      rw [sweepZ_other hne, scatterFn_get h.wf.indeps_nodup hk h2]
  · rw [Tape.y_eq hp.wf]
    simp only
    let I : Nat → S := fn v'
    let ss : List (S × S) := x0.zip x1
    have hsolve : Solves zeroSh I t.ops (fn t.vals) := by
      intro op hop
      refine ⟨?_, ?_⟩
      · intro hc
        have hni : op.vid ∉ t.indeps := h.wf.vid_fresh op (by simp [mem_activeOps, hop, hc])
        simp only [I, hf, zeroSh]
        rw [sweepZ_const h.wf.ssa _ hop hc, scatterFn_not_mem hni]
      · intro hc
        simp only [I, hf, zeroSh]
        exact sweepZ_computes h.wf.ssa _ hop hc
    obtain ⟨ys, hy1, -, hy3⟩ := h.shadow S zeroSh I ss (Or.inl zeroSh_closed) hsolve
      (by simp only [ss]; rw [List.map_fst_zip]; omega) (by
        intro k s hs
        obtain ⟨hk, hs'⟩ := List.getElem?_eq_some_iff.mp hs
        have hk' : k < x0.length ∧ k < x1.length := by
          simp only [ss, List.length_zip] at hk; omega
        have hki : k < t.indeps.length := by rw [← hl]; exact hk'.2
        have hid : t.indeps[k] = k := by simp [h.indeps]
        have hne : ∀ op ∈ activeOps t.ops, op.vid ≠ k := by
          intro op hop he
          exact h.wf.vid_fresh op hop (by rw [he, h.indeps]; simpa using hk'.1)
        simp only [I, hf]
        rw [sweepZ_other hne]
        have := scatterFn_get (xs := x1) (f := fn t.vals) h.wf.indeps_nodup hki hk'.2
        rw [hid] at this
        rw [this, ← hs']
        simp [ss])
    have hz := runProgsS_zero f.progs hsl (ss := ss) (ts := x1.map fun v => (v, ())) (by
      apply forall₂_getElem
      · simp [ss]; omega
      · intro k h1 h2; simp [ss])
    unfold Func.evalS at hy1
    rw [hy1] at hz
    obtain ⟨zs, hz1, hz2⟩ := hz.ok_left
    unfold Func.evalV Func.evalS
    rw [hz1, map_ok_eq, ← forall₂_snd_map hz2, hy3]

/-! ## Forward sweep and tapeless forward mode -/

/-- No derivative arises from constants. -/
def ZeroTangent (S : Type) [Flt S] : Prop :=
  ∀ (o : OpCode) (a b : S), o.computes = true → ffun o a b Flt.zero Flt.zero = Flt.zero

theorem dualSh_closed (h : ZeroTangent S) : (dualSh : Shadow S S).ConstClosed := by
  intro o a b hc; exact h o a b hc

theorem TapeOf.forward_eval {f : Func S} {x : List S} {t : Tape S} (h : TapeOf f x t)
    (hz : ZeroTangent S ∨ f.NoConstOps) {dx : List S} (hlen : dx.length = x.length) :
    ∃ ys, f.evalD (x.zip dx) = .ok ys ∧ t.firstOrderForward dx = .ok (ys.map Prod.snd) ∧
      t.y = .ok (ys.map Prod.fst) := by
  have hl : dx.length = t.indeps.length := by rw [h.indeps, List.length_range, hlen]
  rw [Tape.firstOrderForward_eq h.wf (by omega), Tape.y_eq h.wf]
  let I : Nat → S := sweepF (fn t.vals) t.ops (scatterFn t.indeps dx (fun _ => Flt.zero))
  have hsolve : Solves dualSh I t.ops (fn t.vals) := by
    intro op hop
    exact ⟨fun hc => sweepF_const h.wf.ssa _ hop hc, fun hc => sweepF_computes h.wf.ssa _ hop hc⟩
  obtain ⟨ys, hy1, hy2, hy3⟩ := h.shadow S dualSh I (x.zip dx) (hz.imp dualSh_closed id) hsolve
    (by rw [List.map_fst_zip]; omega) (by
      intro k s hs
      obtain ⟨hk, hs'⟩ := List.getElem?_eq_some_iff.mp hs
      have hk' : k < x.length ∧ k < dx.length := by
        simp only [List.length_zip] at hk; omega
      have hki : k < t.indeps.length := by rw [← hl]; exact hk'.2
      have hid : t.indeps[k] = k := by simp [h.indeps]
      have hne : ∀ op ∈ activeOps t.ops, op.vid ≠ k := by
        intro op hop he
        exact h.wf.vid_fresh op hop (by rw [he, h.indeps]; simpa using hk'.1)
      simp only [I]
      rw [sweepF_other hne]
      have := scatterFn_get (xs := dx) (f := fun _ => (Flt.zero : S)) h.wf.indeps_nodup hki hk'.2
      rw [hid] at this
      rw [this, ← hs']
      simp)
  exact ⟨ys, hy1, by rw [hy3], by rw [hy2]⟩

end Adv
