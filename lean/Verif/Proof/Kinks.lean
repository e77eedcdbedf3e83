import Verif.Proof.Layout
import Verif.Proof.Probe
import Verif.Props.Chain

/-!
# Kinks on the tape of a chain and on the tapes of its links

The multiplicity of a generalized Jacobian counts the abs operations of the tape whose argument vanishes at the end of
the increment. A link records its inputs as independents, also those that are constants on the tape of the whole chain,
so the links have at least as many such operations as the whole tape.
-/

set_option linter.unusedSectionVars false

namespace Adv

variable {K : Type} [Field K] [LinearOrder K] [IsStrictOrderedRing K] [Flt K] [LawfulFlt K]

/-- The number of abs operations at a kink, for values `V` and increments `I`. -/
def kinkCount (V I : Nat → K) (ops : List Operation) : Nat :=
  ops.countP fun op => decide (op.opcode = .Abs ∧ V op.a1 + I op.a1 = 0)

/-- Increment of a number; constants do not move. -/
def Node.delta (I : Nat → K) (n : Node K) : K :=
  match n.2 with
  | some i => I i
  | none => 0

/-- The recorded value is the value. -/
def Node.Fits (V : Nat → K) (n : Node K) : Prop := ∀ i, n.2 = some i → V i = n.1

/-- `l` was extended to `l'`. -/
def Layout.Ext {S : Type} (l l' : Layout S) : Prop := l.vals <+: l'.vals ∧ l.ops <+: l'.ops

theorem Layout.Ext.refl {S : Type} (l : Layout S) : l.Ext l := ⟨List.prefix_refl _, List.prefix_refl _⟩

theorem Layout.Ext.trans {S : Type} {l l' l'' : Layout S} (h : l.Ext l') (h' : l'.Ext l'') : l.Ext l'' :=
  ⟨h.1.trans h'.1, h.2.trans h'.2⟩

theorem Layout.add_ext {S : Type} (l : Layout S) (o : OpCode) (v : S) (a b : Option Nat) : l.Ext (l.add o v a b).2 :=
  ⟨⟨_, rfl⟩, ⟨_, rfl⟩⟩

theorem Layout.place_ext {S : Type} (l : Layout S) (x : Node S) : l.Ext (l.place x).2 := by
  unfold Layout.place
  split
  · exact .refl l
  · exact l.add_ext _ _ _ _

theorem Layout.places_ext {S : Type} (l : Layout S) (ys : List (Node S)) : l.Ext (l.places ys).2 := by
  induction ys generalizing l with
  | nil => exact .refl l
  | cons y ys ih => exact (l.place_ext y).trans (ih _)

theorem kinkCount_mono {V I : Nat → K} {ops ops' : List Operation} (h : ops <+: ops') :
    kinkCount V I ops ≤ kinkCount V I ops' := h.sublist.countP_le

/-- One operation. -/
def Layout.step {S : Type} (l : Layout S) (o : OpCode) (v : S) (x : Node S) : Option (Node S) → Node S × Layout S
  | none => match x.2 with
    | none => ((v, none), l)
    | some i => ((v, some l.vals.length), (l.add o v (some i) none).2)
  | some y => match x.2, y.2 with
    | none, none => ((v, none), l)
    | _, _ => ((v, some ((l.place x).2.place y).2.vals.length),
        (((l.place x).2.place y).2.add o v (some (l.place x).1) (some ((l.place x).2.place y).1)).2)

theorem Layout.step_ext {S : Type} (l : Layout S) (o : OpCode) (v : S) (x : Node S) (y : Option (Node S)) :
    l.Ext (l.step o v x y).2 := by
  unfold Layout.step
  split
  · split
    · exact .refl l
    · exact l.add_ext _ _ _ _
  · split
    · exact .refl l
    · exact ((l.place_ext _).trans (Layout.place_ext _ _)).trans (Layout.add_ext _ _ _ _ _)

theorem Layout.step_fst {S : Type} (l : Layout S) (o : OpCode) (v : S) (x : Node S) (y : Option (Node S)) :
    (l.step o v x y).1.1 = v := by
  unfold Layout.step
  split <;> split <;> rfl

/-- The operand of an operation. -/
theorem Prog.layout_op {S : Type} [Flt S] {o : OpCode} {a : Arg S} {b : Option (Arg S)} {k : Nat → S → Prog S}
    {env : List (Node S)} {l : Layout S} {r : List (Node S) × Layout S}
    (h : (Prog.op o a b k).layout env l = some r) :
    ∃ x y v, a.node env = some x ∧ b.map (Arg.node env) = y.map some ∧ o.meaning x.1 (y.map Prod.fst) = some v ∧
      (k env.length v).layout (env ++ [(l.step o v x y).1]) (l.step o v x y).2 = some r := by
  cases b with
  | none =>
    simp only [Prog.layout, Option.bind_eq_bind] at h
    rcases hx : a.node env with _ | x
    · rw [hx] at h; cases h
    rw [hx] at h
    simp only [Option.bind_some] at h
    rcases hv : o.meaning x.1 none with _ | v
    · rw [hv] at h; cases h
    rw [hv] at h
    simp only [Option.bind_some] at h
    refine ⟨x, none, v, rfl, rfl, hv, ?_⟩
    rw [← h]
    unfold Layout.step
    rcases x.2 with _ | i <;> rfl
  | some b =>
    simp only [Prog.layout, Option.bind_eq_bind] at h
    rcases hx : a.node env with _ | x
    · rw [hx] at h; cases h
    rw [hx] at h
    simp only [Option.bind_some] at h
    rcases hy : b.node env with _ | y
    · rw [hy] at h; cases h
    rw [hy] at h
    simp only [Option.bind_some] at h
    rcases hv : o.meaning x.1 (some y.1) with _ | v
    · rw [hv] at h; cases h
    rw [hv] at h
    simp only [Option.bind_some] at h
    refine ⟨x, some y, v, rfl, by simp [hy], hv, ?_⟩
    rw [← h]
    unfold Layout.step
    rcases hx2 : x.2 with _ | i <;> rcases hy2 : y.2 with _ | j <;> simp only [hy2] <;> rfl

theorem Prog.layout_ext {S : Type} [Flt S] (p : Prog S) {env ys : List (Node S)} {l l' : Layout S}
    (h : p.layout env l = some (ys, l')) : l.Ext l' := by
  induction p generalizing env l with
  | ret outs =>
    simp only [Prog.layout, Option.bind_eq_bind] at h
    rcases hm : outs.mapM (Arg.node env) with _ | zs
    · rw [hm] at h; cases h
    rw [hm] at h
    simp only [Option.bind_some] at h
    injection h with h
    injection h with _ h2
    exact h2 ▸ .refl l
  | panic => cases h
  | op o a b k ih =>
    obtain ⟨x, y, v, -, -, -, h⟩ := Prog.layout_op h
    exact (l.step_ext o v x y).trans (ih _ _ h)

/-! ## A single tape -/

/-- Values and increments of a finished tape. -/
structure Moves (l : Layout K) (I : Nat → K) : Prop where
  solves : Solves dualSh I l.ops (fn l.vals)

theorem Layout.place_fits {l lf : Layout K} {I : Nat → K} (hm : Moves lf I) (x : Node K) (he : (l.place x).2.Ext lf)
    (hx : x.Fits (fn lf.vals)) :
    fn lf.vals (l.place x).1 = x.1 ∧ I (l.place x).1 = x.delta I ∧
      kinkCount (fn lf.vals) I (l.place x).2.ops = kinkCount (fn lf.vals) I l.ops := by
  unfold Layout.place at he ⊢
  unfold Node.delta
  rcases hx2 : x.2 with _ | i
  · rw [hx2] at he
    refine ⟨?_, ?_, ?_⟩
    · have := fn_prefix he.1 (k := l.vals.length) (by simp [Layout.add])
      simp only [Layout.add] at this ⊢
      rw [this, fn_append_len]
    · have := (hm.solves ⟨.Const, l.vals.length, none, none⟩ (he.2.subset (by simp [Layout.add]))).1 rfl
      simp only [Layout.add]
      rw [this]
      exact LawfulFlt.zero_eq
    · simp [kinkCount, Layout.add]
  · exact ⟨hx i hx2, rfl, rfl⟩

theorem meaning_computes' {S : Type} [Flt S] {o : OpCode} {a v : S} {b : Option S} (h : o.meaning a b = some v) :
    o.computes = true := by
  cases o <;> cases b <;> first | rfl | cases h

/-- What one operation does. -/
theorem Layout.step_spec {l lf : Layout K} {I : Nat → K} (hm : Moves lf I) {o : OpCode} {v : K} {x : Node K}
    {y : Option (Node K)} (hv : o.meaning x.1 (y.map Prod.fst) = some v) (he : (l.step o v x y).2.Ext lf)
    (hx : x.Fits (fn lf.vals)) (hy : ∀ z, y = some z → z.Fits (fn lf.vals)) :
    (l.step o v x y).1.Fits (fn lf.vals) ∧
    (l.step o v x y).1.delta I = ffun o x.1 (y.getD x).1 (x.delta I) ((y.getD x).delta I) ∧
    ((l.step o v x y).1.2.isSome ↔ x.2.isSome ∨ ∃ z, y = some z ∧ z.2.isSome) ∧
    kinkCount (fn lf.vals) I (l.step o v x y).2.ops = kinkCount (fn lf.vals) I l.ops +
      if o = .Abs ∧ x.2.isSome ∧ x.1 + x.delta I = 0 then 1 else 0 := by
  have hc := meaning_computes' hv
  have hzero : ∀ a b : K, ffun o a b 0 0 = 0 := by
    intro a b
    have := Props.zeroTangent_of_lawful (K := K) o a b hc
    rwa [LawfulFlt.zero_eq] at this
  cases y with
  | none =>
    rcases hx2 : x.2 with _ | i
    · have e : l.step o v x none = ((v, none), l) := by simp only [Layout.step, hx2]
      rw [e]
      have hd : x.delta I = 0 := by simp [Node.delta, hx2]
      refine ⟨fun i h => (nomatch h), ?_, by simp, by simp⟩
      rw [Option.getD_none, hd, hzero]; rfl
    · have e : l.step o v x none = ((v, some l.vals.length), (l.add o v (some i) none).2) := by
        simp only [Layout.step, hx2]
      rw [e] at he ⊢
      have hd : x.delta I = I i := by simp [Node.delta, hx2]
      have hxv : fn lf.vals i = x.1 := hx i hx2
      refine ⟨?_, ?_, by simp, ?_⟩
      · intro j hj
        injection hj with hj
        subst hj
        have := fn_prefix he.1 (k := l.vals.length) (by simp [Layout.add])
        rw [this]
        simp only [Layout.add, fn_append_len]
      · have := (hm.solves ⟨o, l.vals.length, some i, none⟩ (he.2.subset (by simp [Layout.add]))).2 hc
        simp only [Operation.a1, Operation.a2, Option.getD_some, Option.getD_none, hxv] at this
        rw [Option.getD_none, hd]
        exact this
      · simp only [kinkCount, Layout.add, List.countP_append, List.countP_singleton, Operation.a1, Option.getD_some, hxv,
          hd, Option.isSome_some, true_and, decide_eq_true_eq]
  | some y =>
    have hy' := hy y rfl
    have hna : o ≠ .Abs := by rintro rfl; cases hv
    by_cases h2 : x.2 = none ∧ y.2 = none
    · have e : l.step o v x (some y) = ((v, none), l) := by simp only [Layout.step, h2.1, h2.2]
      rw [e]
      have hd : x.delta I = 0 := by simp [Node.delta, h2.1]
      have hd' : y.delta I = 0 := by simp [Node.delta, h2.2]
      refine ⟨fun i h => (nomatch h), ?_, by simp [h2.1, h2.2], by simp [hna]⟩
      rw [Option.getD_some, hd, hd', hzero]; rfl
    · have e : l.step o v x (some y) = ((v, some ((l.place x).2.place y).2.vals.length),
          (((l.place x).2.place y).2.add o v (some (l.place x).1) (some ((l.place x).2.place y).1)).2) := by
        unfold Layout.step
        rcases hx2 : x.2 with _ | i <;> rcases hy2 : y.2 with _ | j
        · exact absurd ⟨hx2, hy2⟩ h2
        all_goals simp only [hy2]
      rw [e] at he ⊢
      have e2 := (Layout.add_ext _ _ _ _ _).trans he
      have e1 := (Layout.place_ext _ y).trans e2
      obtain ⟨x1, x2, x3⟩ := Layout.place_fits hm x e1 hx
      obtain ⟨y1, y2, y3⟩ := Layout.place_fits hm y e2 hy'
      refine ⟨?_, ?_, ?_, ?_⟩
      · intro j hj
        injection hj with hj
        subst hj
        have := fn_prefix he.1 (k := ((l.place x).2.place y).2.vals.length) (by simp [Layout.add])
        rw [this]
        simp only [Layout.add, fn_append_len]
      · have := (hm.solves ⟨o, ((l.place x).2.place y).2.vals.length, some (l.place x).1, some ((l.place x).2.place y).1⟩
          (he.2.subset (by simp [Layout.add]))).2 hc
        simp only [Operation.a1, Operation.a2, Option.getD_some, x1, y1, x2, y2] at this
        exact this
      · simp only [Option.isSome_some, true_iff]
        rcases hx2 : x.2 with _ | i <;> rcases hy2 : y.2 with _ | j <;> simp_all
      · rw [if_neg (fun h => hna h.1), Nat.add_zero, ← x3, ← y3]
        simp [kinkCount, Layout.add, List.countP_append, hna]

/-! ## Two tapes of the same code -/

/-- The same number on two tapes; on the second one it may have a place although it is a constant on the first. -/
structure Below (V I U J : Nat → K) (a b : Node K) : Prop where
  val : a.1 = b.1
  place : a.2.isSome → b.2.isSome
  delta : a.delta I = b.delta J
  fits₁ : a.Fits V
  fits₂ : b.Fits U

theorem below_lit {V I U J : Nat → K} (v : K) : Below V I U J (v, none) (v, none) :=
  ⟨rfl, id, rfl, fun _ h => (nomatch h), fun _ h => (nomatch h)⟩

theorem Arg.node_below {V I U J : Nat → K} {env env' : List (Node K)} (he : List.Forall₂ (Below V I U J) env env')
    (a : Arg K) {x x' : Node K} (h : a.node env = some x) (h' : a.node env' = some x') : Below V I U J x x' := by
  cases a with
  | lit v =>
    injection h with h; injection h' with h'
    subst h h'
    exact below_lit v
  | var i =>
    simp only [Arg.node] at h h'
    obtain ⟨h1, rfl⟩ := List.getElem?_eq_some_iff.mp h
    obtain ⟨h2, rfl⟩ := List.getElem?_eq_some_iff.mp h'
    exact he.get h1 h2

theorem Arg.mapM_below {V I U J : Nat → K} {env env' : List (Node K)} (he : List.Forall₂ (Below V I U J) env env') :
    ∀ (outs : List (Arg K)) {xs xs' : List (Node K)}, outs.mapM (Arg.node env) = some xs →
      outs.mapM (Arg.node env') = some xs' → List.Forall₂ (Below V I U J) xs xs'
  | [], xs, xs', h, h' => by injection h with h; injection h' with h'; subst h h'; exact .nil
  | a :: outs, xs, xs', h, h' => by
      rw [List.mapM_cons] at h h'
      rcases ha : a.node env with _ | x
      · rw [ha] at h; cases h
      rcases ha' : a.node env' with _ | x'
      · rw [ha'] at h'; cases h'
      rcases hm : outs.mapM (Arg.node env) with _ | zs
      · rw [ha, hm] at h; cases h
      rcases hm' : outs.mapM (Arg.node env') with _ | zs'
      · rw [ha', hm'] at h'; cases h'
      rw [ha, hm] at h
      rw [ha', hm'] at h'
      injection h with h; injection h' with h'
      subst h h'
      exact .cons (Arg.node_below he a ha ha') (Arg.mapM_below he outs hm hm')

theorem Prog.layout_below (p : Prog K) {lf lf' : Layout K} {I J : Nat → K} (hm : Moves lf I) (hm' : Moves lf' J)
    {env env' ys ys' : List (Node K)} {l l1 l' l1' : Layout K}
    (he : List.Forall₂ (Below (fn lf.vals) I (fn lf'.vals) J) env env')
    (h : p.layout env l = some (ys, l1)) (h' : p.layout env' l' = some (ys', l1')) (hf : l1.Ext lf) (hf' : l1'.Ext lf') :
    List.Forall₂ (Below (fn lf.vals) I (fn lf'.vals) J) ys ys' ∧
    kinkCount (fn lf.vals) I l1.ops + kinkCount (fn lf'.vals) J l'.ops ≤
      kinkCount (fn lf.vals) I l.ops + kinkCount (fn lf'.vals) J l1'.ops := by
  induction p generalizing env env' l l' with
  | ret outs =>
    simp only [Prog.layout, Option.bind_eq_bind] at h h'
    rcases hz : outs.mapM (Arg.node env) with _ | zs
    · rw [hz] at h; cases h
    rcases hz' : outs.mapM (Arg.node env') with _ | zs'
    · rw [hz'] at h'; cases h'
    rw [hz] at h
    rw [hz'] at h'
    simp only [Option.bind_some] at h h'
    injection h with h; injection h with h1 h2
    injection h' with h'; injection h' with h1' h2'
    subst h1 h2 h1' h2'
    exact ⟨Arg.mapM_below he outs hz hz', le_refl _⟩
  | panic => cases h
  | op o a b k ih =>
    obtain ⟨x, y, v, a1, a2, a3, a4⟩ := Prog.layout_op h
    obtain ⟨x', y', v', b1, b2, b3, b4⟩ := Prog.layout_op h'
    have hx := Arg.node_below he a a1 b1
    have hy : ∀ z z', y = some z → y' = some z' → Below (fn lf.vals) I (fn lf'.vals) J z z' := by
      rintro z z' rfl rfl
      cases b with
      | none => cases a2
      | some b =>
        simp only [Option.map_some, Option.some.injEq] at a2 b2
        exact Arg.node_below he b a2 b2
    have hyy : y.isSome = y'.isSome := by
      have h1 := congrArg Option.isSome a2
      have h2 := congrArg Option.isSome b2
      rw [Option.isSome_map, Option.isSome_map] at h1 h2
      rw [← h1, ← h2]
    have hyf : y.map Prod.fst = y'.map Prod.fst := by
      cases y with
      | none => cases y' with
        | none => rfl
        | some z' => cases hyy
      | some z => cases y' with
        | none => cases hyy
        | some z' => simp [(hy z z' rfl rfl).val]
    have hvv : v = v' := by
      rw [hyf, hx.val, b3] at a3
      injection a3 with a3
      exact a3.symm
    subst hvv
    have hl : env.length = env'.length := he.length_eq
    rw [← hl] at b4
    have g1 := (Prog.layout_ext _ a4).trans hf
    have g2 := (Prog.layout_ext _ b4).trans hf'
    obtain ⟨s1, s2, s3, s4⟩ := Layout.step_spec hm a3 g1 hx.fits₁ (by
      rintro z rfl
      cases y' with
      | none => cases hyy
      | some z' => exact (hy z z' rfl rfl).fits₁)
    obtain ⟨t1, t2, t3, t4⟩ := Layout.step_spec hm' b3 g2 hx.fits₂ (by
      rintro z' rfl
      cases y with
      | none => cases hyy
      | some z => exact (hy z z' rfl rfl).fits₂)
    have hstep : Below (fn lf.vals) I (fn lf'.vals) J (l.step o v x y).1 (l'.step o v x' y').1 := by
      refine ⟨by rw [Layout.step_fst, Layout.step_fst], ?_, ?_, s1, t1⟩
      · rw [s3, t3]
        rintro (h | ⟨z, rfl, h⟩)
        · exact Or.inl (hx.place h)
        · cases y' with
          | none => cases hyy
          | some z' => exact Or.inr ⟨z', rfl, (hy z z' rfl rfl).place h⟩
      · rw [s2, t2]
        cases y with
        | none => cases y' with
          | none => simp only [Option.getD_none]; rw [hx.val, hx.delta]
          | some z' => cases hyy
        | some z => cases y' with
          | none => cases hyy
          | some z' =>
            simp only [Option.getD_some]
            rw [hx.val, hx.delta, (hy z z' rfl rfl).val, (hy z z' rfl rfl).delta]
    obtain ⟨i1, i2⟩ := ih _ _ (List.rel_append he (.cons hstep .nil)) a4 b4
    refine ⟨i1, ?_⟩
    rw [s4, t4, ← hx.val, ← hx.delta] at i2
    have hif : (if o = .Abs ∧ x.2.isSome ∧ x.1 + x.delta I = 0 then 1 else 0) ≤
        (if o = .Abs ∧ x'.2.isSome ∧ x.1 + x.delta I = 0 then 1 else 0) := by
      split
      · rename_i h0
        rw [if_pos ⟨h0.1, hx.place h0.2.1, h0.2.2⟩]
      · exact Nat.zero_le _
    omega

/-- The layout of programs one after the other. -/
def layoutProgs {S : Type} [Flt S] : List (List S → Prog S) → List (Node S) → Layout S → Option (List (Node S) × Layout S)
  | [], x, l => some (x, l)
  | p :: ps, x, l => do
      let (y, l) ← (p (x.map Prod.fst)).layout x l
      layoutProgs ps y l

theorem layoutProgs_append {S : Type} [Flt S] (ps qs : List (List S → Prog S)) (x : List (Node S)) (l : Layout S) :
    layoutProgs (ps ++ qs) x l = (layoutProgs ps x l).bind fun r => layoutProgs qs r.1 r.2 := by
  induction ps generalizing x l with
  | nil => rfl
  | cons p ps ih =>
    simp only [List.cons_append, layoutProgs, Option.bind_eq_bind]
    rcases (p (x.map Prod.fst)).layout x l with _ | ⟨y, l⟩
    · rfl
    · exact ih y l

mutual
theorem Func.layout_eq {S : Type} [Flt S] : ∀ (f : Func S) (x : List (Node S)) (l : Layout S),
    f.layout x l = layoutProgs f.progs x l
  | .simple _ _ f, x, l => by
      simp only [Func.layout, Func.progs, layoutProgs, Option.bind_eq_bind]
      rcases (f (x.map Prod.fst)).layout x l with _ | ⟨y, l⟩ <;> rfl
  | .chain fs, x, l => by
      rw [Func.layout, Func.progs]; exact Func.layoutAll_eq fs x l
theorem Func.layoutAll_eq {S : Type} [Flt S] : ∀ (fs : List (Func S)) (x : List (Node S)) (l : Layout S),
    Func.layoutAll fs x l = layoutProgs (Func.progsAll fs) x l
  | [], x, l => rfl
  | f :: fs, x, l => by
      rw [Func.layoutAll, Func.progsAll, layoutProgs_append, Func.layout_eq f]
      rcases layoutProgs f.progs x l with _ | ⟨y, l⟩
      · rfl
      · exact Func.layoutAll_eq fs y l
end

theorem layoutProgs_cons {S : Type} [Flt S] {p : List S → Prog S} {ps : List (List S → Prog S)} {x : List (Node S)}
    {l : Layout S} {r : List (Node S) × Layout S} (h : layoutProgs (p :: ps) x l = some r) :
    ∃ y l1, (p (x.map Prod.fst)).layout x l = some (y, l1) ∧ layoutProgs ps y l1 = some r := by
  simp only [layoutProgs, Option.bind_eq_bind] at h
  rcases hp : (p (x.map Prod.fst)).layout x l with _ | ⟨y, l1⟩
  · rw [hp] at h; cases h
  · rw [hp] at h
    exact ⟨y, l1, rfl, h⟩

theorem layoutProgs_ext {S : Type} [Flt S] : ∀ (ps : List (List S → Prog S)) {x : List (Node S)} {l : Layout S}
    {ys : List (Node S)} {l' : Layout S}, layoutProgs ps x l = some (ys, l') → l.Ext l'
  | [], x, l, ys, l', h => by
      injection h with h; injection h with _ h; exact h ▸ .refl l
  | p :: ps, x, l, ys, l', h => by
      obtain ⟨y, l1, h1, h2⟩ := layoutProgs_cons h
      exact (Prog.layout_ext _ h1).trans (layoutProgs_ext ps h2)

theorem below_map_fst {V I U J : Nat → K} {env env' : List (Node K)} (he : List.Forall₂ (Below V I U J) env env') :
    env.map Prod.fst = env'.map Prod.fst := by
  induction he with
  | nil => rfl
  | cons h _ ih => simp [h.val, ih]

theorem below_map_delta {V I U J : Nat → K} {env env' : List (Node K)} (he : List.Forall₂ (Below V I U J) env env') :
    env.map (Node.delta I) = env'.map (Node.delta J) := by
  induction he with
  | nil => rfl
  | cons h _ ih => simp [h.delta, ih]

theorem layoutProgs_below {lf lf' : Layout K} {I J : Nat → K} (hm : Moves lf I) (hm' : Moves lf' J) :
    ∀ (ps : List (List K → Prog K)) {env env' ys ys' : List (Node K)} {l l1 l' l1' : Layout K},
    List.Forall₂ (Below (fn lf.vals) I (fn lf'.vals) J) env env' → layoutProgs ps env l = some (ys, l1) →
    layoutProgs ps env' l' = some (ys', l1') → l1.Ext lf → l1'.Ext lf' →
    List.Forall₂ (Below (fn lf.vals) I (fn lf'.vals) J) ys ys' ∧
    kinkCount (fn lf.vals) I l1.ops + kinkCount (fn lf'.vals) J l'.ops ≤
      kinkCount (fn lf.vals) I l.ops + kinkCount (fn lf'.vals) J l1'.ops
  | [], env, env', ys, ys', l, l1, l', l1', he, h, h', _, _ => by
      injection h with h; injection h with h1 h2
      injection h' with h'; injection h' with h1' h2'
      subst h1 h2 h1' h2'
      exact ⟨he, le_refl _⟩
  | p :: ps, env, env', ys, ys', l, l1, l', l1', he, h, h', hf, hf' => by
      obtain ⟨z, m, h1, h2⟩ := layoutProgs_cons h
      obtain ⟨z', m', h1', h2'⟩ := layoutProgs_cons h'
      rw [← below_map_fst he] at h1'
      obtain ⟨a1, a2⟩ := Prog.layout_below _ hm hm' he h1 h1' ((layoutProgs_ext ps h2).trans hf)
        ((layoutProgs_ext ps h2').trans hf')
      obtain ⟨b1, b2⟩ := layoutProgs_below hm hm' ps a1 h2 h2' hf hf'
      exact ⟨b1, by omega⟩

/-! ## Multiplicities -/

/-- Increments on a tape. -/
def Tape.incr (t : Tape K) (dx : List K) : Nat → K :=
  sweepF (fn t.vals) t.ops (scatterFn t.indeps dx (fun _ => 0))

theorem Tape.moves {t : Tape K} (h : t.WF) (dx : List K) : Moves ⟨t.vals, t.ops⟩ (t.incr dx) :=
  ⟨fun op hop => ⟨fun hc => sweepF_const h.ssa _ hop hc, fun hc => sweepF_computes h.ssa _ hop hc⟩⟩

theorem zerosBefore_eq_kinkCount (t : Tape K) (dx : List K) :
    zerosBefore (zHatV t dx) t.numAbs = kinkCount (fn t.vals) (t.incr dx) t.ops := by
  have e1 : kinkCount (fn t.vals) (t.incr dx) t.ops =
      (zIds t).countP fun k => decide (fn t.vals k + t.incr dx k = 0) := by
    unfold kinkCount zIds Tape.absOps
    rw [List.countP_map, List.countP_filter]
    congr 1
    funext op
    simp [Bool.and_comm]
  have e2 : ∀ (l : List Nat) (P : Nat → Prop) [DecidablePred P],
      (Finset.filter (fun k => P (l.getD k 0)) (Finset.range l.length)).card = l.countP fun k => decide (P k) := by
    intro l P _
    induction l using List.reverseRecOn with
    | nil => rfl
    | append_singleton l a ih =>
      rw [List.length_append, List.length_singleton, Finset.range_add_one, Finset.filter_insert, List.countP_append,
        List.countP_singleton]
      have h1 : (l ++ [a]).getD l.length 0 = a := by simp
      have h2 : Finset.filter (fun k => P ((l ++ [a]).getD k 0)) (Finset.range l.length) =
          Finset.filter (fun k => P (l.getD k 0)) (Finset.range l.length) := by
        apply Finset.filter_congr
        intro k hk
        rw [Finset.mem_range] at hk
        rw [List.getD_append _ _ _ _ hk]
      rw [h1, h2]
      by_cases hP : P a
      · rw [if_pos hP, Finset.card_insert_of_notMem (by simp), ih]; simp [hP]
      · rw [if_neg hP, ih]; simp [hP]
  rw [e1, ← e2 (zIds t) fun k => fn t.vals k + t.incr dx k = 0, zIds_length]
  unfold zerosBefore
  congr 1
  apply Finset.filter_congr
  intro i hi
  rw [Finset.mem_range] at hi
  rw [zHatV_getD hi]
  rfl

/-- The places of the results. -/
theorem Layout.places_delta {lf : Layout K} {I : Nat → K} (hm : Moves lf I) :
    ∀ (ys : List (Node K)) {l : Layout K}, (l.places ys).2.Ext lf → (∀ y ∈ ys, y.Fits (fn lf.vals)) →
      (l.places ys).1.map I = ys.map (Node.delta I) ∧ (l.places ys).1.map (fn lf.vals) = ys.map Prod.fst
  | [], l, _, _ => ⟨rfl, rfl⟩
  | y :: ys, l, he, hf => by
      have e1 : (l.place y).2.Ext lf := (Layout.places_ext _ ys).trans he
      obtain ⟨a1, a2, -⟩ := Layout.place_fits hm y e1 (hf y (by simp))
      obtain ⟨b1, b2⟩ := Layout.places_delta hm ys (l := (l.place y).2) he fun z hz => hf z (by simp [hz])
      simp only [Layout.places, List.map_cons, a1, a2, b1, b2, and_self]

/-- The tape of a function, from its layout. -/
theorem Func.layoutTape_some {S : Type} [Flt S] {f : Func S} {x : List S} {t : Tape S} (h : f.layoutTape x = some t) :
    ∃ ys l, layoutProgs f.progs (x.zipIdx.map fun p => (p.1, some p.2)) ⟨x, []⟩ = some (ys, l) ∧
      t.indeps = List.range x.length ∧ t.deps = (l.places ys).1 ∧ (⟨t.vals, t.ops⟩ : Layout S) = (l.places ys).2 := by
  unfold Func.layoutTape at h
  rw [Func.layout_eq] at h
  rcases hl : layoutProgs f.progs (x.zipIdx.map fun p => (p.1, some p.2)) ⟨x, []⟩ with _ | ⟨ys, l⟩
  · rw [hl] at h; cases h
  rw [hl] at h
  simp only [Option.bind_eq_bind, Option.bind_some] at h
  injection h with h
  subst h
  exact ⟨ys, l, hl, rfl, rfl, rfl⟩

/-- Numbers on some tape and the inputs of a link with the same values and increments. -/
theorem below_inputs {lf : Layout K} {I : Nat → K} {env : List (Node K)} {t : Tape K} {f : Func K}
    (hT : TapeOf f (env.map Prod.fst) t) (hv : env.map Prod.fst <+: t.vals)
    (hf : ∀ n ∈ env, n.Fits (fn lf.vals)) :
    List.Forall₂ (Below (fn lf.vals) I (fn t.vals) (t.incr (env.map (Node.delta I)))) env
      ((env.map Prod.fst).zipIdx.map fun p => (p.1, some p.2)) := by
  apply forall₂_getElem (by simp)
  intro k h1 h2
  have hin : t.indeps = List.range env.length := by rw [hT.indeps]; simp
  have hni : ∀ op ∈ activeOps t.ops, op.vid ≠ k := by
    intro op hop he
    exact hT.wf.vid_fresh op hop (by rw [he, hin]; simpa using h1)
  have hki : k < t.indeps.length := by rw [hin]; simpa using h1
  have hid : t.indeps[k] = k := by simp [hin]
  refine ⟨by simp, fun _ => by simp, ?_, hf _ (List.getElem_mem h1), ?_⟩
  · have := scatterFn_get (xs := env.map (Node.delta I)) (f := fun _ => (0 : K)) hT.wf.indeps_nodup hki (by simpa using h1)
    rw [hid] at this
    simp only [List.getElem_map, List.getElem_zipIdx, Nat.zero_add]
    show _ = t.incr _ k
    rw [Tape.incr, sweepF_other hni, this, List.getElem_map]
  · intro i hi
    simp only [List.getElem_map, List.getElem_zipIdx, Nat.zero_add] at hi ⊢
    injection hi with hi
    subst hi
    rw [fn_prefix hv (by simpa using h1)]
    simp [fn, h1]

/-- Kinks of the rest of a chain on the tape of the whole chain. -/
theorem gjList_kinks {w0 : World K} (hw0 : w0.nextId < usizeMax) {lf : Layout K} {I : Nat → K} (hm : Moves lf I) :
    ∀ (fs : List (Func K)) {R : GenJac K} {env ys : List (Node K)} {l l' : Layout K},
    gjList w0 fs (env.map Prod.fst) (env.map (Node.delta I)) = .ok R →
    layoutProgs (Func.progsAll fs) env l = some (ys, l') → l'.Ext lf → (∀ n ∈ env, n.Fits (fn lf.vals)) →
    kinkCount (fn lf.vals) I l'.ops ≤ kinkCount (fn lf.vals) I l.ops + R.multiplicity
  | [], R, env, ys, l, l', _, h, _, _ => by
      injection h with h; injection h with _ h; subst h; exact Nat.le_add_right _ _
  | f :: fs, R', env, ys, l, l', hg, h, hf, hfit => by
      rw [gjList] at hg
      rcases hy : f.evalD ((env.map Prod.fst).zip (env.map (Node.delta I))) with e | ds
      · rw [hy] at hg; cases hg
      rw [hy, bind_ok_eq] at hg
      rcases hg1 : gjList w0 fs (ds.map Prod.fst) (ds.map Prod.snd) with e | g
      · rw [hg1] at hg; cases hg
      rw [hg1, bind_ok_eq] at hg
      obtain ⟨-, i2, i3, -⟩ := gjList_ok hw0 fs _ _ g (by simp) hg1
      rw [List.length_map] at i2
      obtain ⟨R, t, k1, k2, k3, k4, -⟩ := gjPure_ok hw0 (by simp) hy i2 i3 hg
      -- the tape of the link
      have hs := (Func.tape_spec f (env.map Prod.fst) w0 hw0).2
      rw [k1] at hs
      obtain ⟨_, -, hT⟩ := hs.ok_left
      have hni : t.numIndeps = env.length := by simp [Tape.numIndeps, hT.indeps]
      have hlt := Func.tape_layout f (env.map Prod.fst) w0 hw0
      rw [k1] at hlt
      obtain ⟨zs, m, l1, -, l3, l4⟩ := Func.layoutTape_some hlt.symm
      have hmx : m.Ext ⟨t.vals, t.ops⟩ := by rw [l4]; exact m.places_ext zs
      have hbase := layoutProgs_ext _ l1
      have hmT := Tape.moves hT.wf (env.map (Node.delta I))
      -- the first part of the whole tape
      rw [Func.progsAll, layoutProgs_append] at h
      rcases hl : layoutProgs f.progs env l with _ | ⟨ws, lm⟩
      · rw [hl] at h; cases h
      rw [hl] at h
      replace h : layoutProgs (Func.progsAll fs) ws lm = some (ys, l') := h
      obtain ⟨b1, b2⟩ := layoutProgs_below hm hmT f.progs
        (below_inputs hT (hbase.1.trans hmx.1) hfit) hl l1 ((layoutProgs_ext _ h).trans hf) hmx
      -- multiplicity of the link
      obtain ⟨U, -, e1⟩ := gj_none_core Sched.seq_valid hT.wf (dx := env.map (Node.delta I)) (by simp [hni]) [0]
      rw [Props.gj_func f (Prod.ext k1 rfl : f.tape (env.map Prod.fst) w0 = (.ok t, _)) k2, e1] at k3
      injection k3 with k3
      have hR : R.multiplicity = kinkCount (fn t.vals) (t.incr (env.map (Node.delta I))) t.ops := by
        rw [← k3, ← zerosBefore_eq_kinkCount]
      -- the rest
      obtain ⟨ds', d1, d2, d3⟩ := hT.forward_eval (Or.inl Props.zeroTangent_of_lawful) (dx := env.map (Node.delta I)) (by simp)
      rw [hy] at d1
      injection d1 with d1
      subst d1
      obtain ⟨p1, p2⟩ := Layout.places_delta hmT zs (l := m) (by rw [← l4]; exact .refl _) (by
        intro z hz
        obtain ⟨k, hk, rfl⟩ := List.getElem_of_mem hz
        exact (b1.get (by rw [b1.length_eq]; exact hk) hk).fits₂)
      rw [← l3] at p1 p2
      rw [Tape.y_eq hT.wf] at d3
      injection d3 with d3
      rw [Tape.firstOrderForward_eq hT.wf (by rw [show t.indeps.length = t.numIndeps from rfl, hni]; simp)] at d2
      injection d2 with d2
      have q1 : ws.map Prod.fst = ds.map Prod.fst := by rw [below_map_fst b1, ← p2, ← d3]
      have q2 : ws.map (Node.delta I) = ds.map Prod.snd := by
        rw [below_map_delta b1, ← p1, ← d2, LawfulFlt.zero_eq]
        rfl
      rw [← q1, ← q2] at hg1
      have hw : ∀ n ∈ ws, n.Fits (fn lf.vals) := by
        intro n hn
        obtain ⟨k, hk, rfl⟩ := List.getElem_of_mem hn
        exact (b1.get hk (by rw [← b1.length_eq]; exact hk)).fits₁
      have rest := gjList_kinks hw0 hm fs hg1 h hf hw
      have hmono : kinkCount (fn t.vals) (t.incr (env.map (Node.delta I))) m.ops ≤
          kinkCount (fn t.vals) (t.incr (env.map (Node.delta I))) t.ops := kinkCount_mono hmx.2
      have h0 : kinkCount (fn t.vals) (t.incr (env.map (Node.delta I))) [] = 0 := rfl
      rw [k4.mult, hR]
      simp only [h0] at b2
      omega

/-- The chain driver counts at least as many kinks as there are on the tape of the whole chain. -/
theorem gjList_multiplicity_le {w0 w1 : World K} (hw0 : w0.nextId < usizeMax) (hw1 : w1.nextId < usizeMax) (f : Func K)
    {x dx : List K} (hl : dx.length = x.length) {R : GenJac K} (hR : gjList w0 f.flatten x dx = .ok R) {t : Tape K}
    (ht : (f.tape x w1).1 = .ok t) : zerosBefore (zHatV t dx) t.numAbs ≤ R.multiplicity := by
  have hs := (Func.tape_spec f x w1 hw1).2
  rw [ht] at hs
  obtain ⟨_, -, hT⟩ := hs.ok_left
  have hlt := Func.tape_layout f x w1 hw1
  rw [ht] at hlt
  obtain ⟨zs, m, l1, l2, l3, l4⟩ := Func.layoutTape_some hlt.symm
  have hmx : m.Ext ⟨t.vals, t.ops⟩ := by rw [l4]; exact m.places_ext zs
  have hbase := layoutProgs_ext _ l1
  have hmT := Tape.moves hT.wf dx
  let env : List (Node K) := x.zipIdx.map fun p => (p.1, some p.2)
  have hv : env.map Prod.fst = x := by simp [env, Function.comp_def]
  have hin : ∀ k (hk : k < dx.length), t.incr dx k = dx[k] := by
    intro k hk
    have hne : ∀ op ∈ activeOps t.ops, op.vid ≠ k := by
      intro op hop he
      exact hT.wf.vid_fresh op hop (by rw [he, hT.indeps]; simpa [← hl] using hk)
    have hki : k < t.indeps.length := by rw [hT.indeps]; simpa [← hl] using hk
    have hid : t.indeps[k] = k := by simp [hT.indeps]
    have := scatterFn_get (xs := dx) (f := fun _ => (0 : K)) hT.wf.indeps_nodup hki hk
    rw [hid] at this
    rw [Tape.incr, sweepF_other hne, this]
  have hd : env.map (Node.delta (t.incr dx)) = dx := by
    apply List.ext_getElem (by simp [env, hl])
    intro k h1 h2
    simp only [env, List.getElem_map, List.getElem_zipIdx, Nat.zero_add]
    exact hin k h2
  have hfit : ∀ n ∈ env, n.Fits (fn t.vals) := by
    intro n hn i hi
    obtain ⟨k, hk, rfl⟩ := List.getElem_of_mem hn
    simp only [env, List.getElem_map, List.getElem_zipIdx, Nat.zero_add] at hi ⊢
    injection hi with hi
    subst hi
    have hk' : k < x.length := by simpa [env] using hk
    rw [fn_prefix (hbase.1.trans hmx.1) hk']
    simp [fn, hk']
  have main := gjList_kinks hw0 hmT f.flatten (env := env) (R := R) (by rw [hv, hd]; exact hR)
    (by rw [Func.progs_flatten]; exact l1) hmx hfit
  have hconst : ∀ (zs : List (Node K)) (m : Layout K),
      kinkCount (fn t.vals) (t.incr dx) (m.places zs).2.ops = kinkCount (fn t.vals) (t.incr dx) m.ops := by
    intro zs
    induction zs with
    | nil => intro m; rfl
    | cons z zs ih =>
      intro m
      rw [Layout.places, ih]
      unfold Layout.place
      rcases z.2 with _ | i
      · simp [kinkCount, Layout.add]
      · rfl
  rw [zerosBefore_eq_kinkCount]
  have h4 : t.ops = (m.places zs).2.ops := congrArg Layout.ops l4
  rw [h4] at main ⊢
  rw [hconst]
  simpa [kinkCount] using main

end Adv
