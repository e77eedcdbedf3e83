import Verif.Spec.Fresh
import Verif.Proof.TapeOf
import Verif.Proof.Views

/-! # Identity of recorded variables -/

set_option linter.unusedSectionVars false

namespace Adv
open scoped Adv

variable {S : Type} [Flt S]

/-- Different variables of the program have different value ids. -/
def IdsInj (env : List (AFloat S)) : Prop :=
  ∀ p q c u : Nat, (env[p]?.bind AFloat.ctx) = some (c, u) → (env[q]?.bind AFloat.ctx) = some (c, u) → p = q

/-- The arguments of the recorded abs operations are variables from `used`, each one once. -/
structure AbsInv (c : Nat) (env : List (AFloat S)) (used : List Nat) (i : Inner S) : Prop where
  inj : IdsInj env
  args : ∀ op ∈ i.ops, op.opcode = .Abs → ∃ p ∈ used, (env[p]?.bind AFloat.ctx) = some (c, op.a1)
  nodup : ((i.ops.filter fun op => op.opcode = .Abs).map Operation.a1).Nodup

theorem getElem?_append_single_bind {env : List (AFloat S)} {r : AFloat S} {p : Nat} {x : Nat × Nat}
    (h : ((env ++ [r])[p]?.bind AFloat.ctx) = some x) :
    (env[p]?.bind AFloat.ctx) = some x ∨ (p = env.length ∧ r.ctx = some x) := by
  rcases Nat.lt_trichotomy p env.length with h1 | h1 | h1
  · left; rwa [List.getElem?_append_left h1] at h
  · right
    subst h1
    simpa using h
  · rw [List.getElem?_eq_none (by simp; omega)] at h
    cases h

theorem getElem?_append_bind {env : List (AFloat S)} {r : AFloat S} {p : Nat} {x : Nat × Nat}
    (h : (env[p]?.bind AFloat.ctx) = some x) : ((env ++ [r])[p]?.bind AFloat.ctx) = some x := by
  rcases hp : env[p]? with _ | y
  · rw [hp] at h; cases h
  · have : p < env.length := (List.getElem?_eq_some_iff.mp hp).1
    rwa [List.getElem?_append_left this]

theorem IdsInj.append {c : Nat} {env : List (AFloat S)} {i : Inner S} {r : AFloat S} (h : IdsInj env)
    (hr : ∀ a ∈ env, Rep c i a) (hf : ∀ c' u, r.ctx = some (c', u) → i.vals.length ≤ u) : IdsInj (env ++ [r]) := by
  have key : ∀ (p c' u : Nat), (env[p]?.bind AFloat.ctx) = some (c', u) → r.ctx = some (c', u) → False := by
    intro p c' u h1 h2
    rcases hp : env[p]? with _ | y
    · rw [hp] at h1; cases h1
    · rw [hp] at h1
      have := (hr y (List.mem_of_getElem? hp) c' u h1).2.1
      have := hf c' u h2
      omega
  intro p q c' u h1 h2
  rcases getElem?_append_single_bind h1 with h1 | ⟨h1, h1'⟩ <;> rcases getElem?_append_single_bind h2 with h2 | ⟨h2, h2'⟩
  · exact h p q c' u h1 h2
  · exact (key p c' u h1 h2').elim
  · exact (key q c' u h2 h1').elim
  · omega

theorem ensureI_ops (i : Inner S) (a : AFloat S) :
    ∃ l, (ensureI i a).2.ops = i.ops ++ l ∧ ∀ op ∈ l, op.opcode = .Const := by
  unfold ensureI
  rcases a.ctx with _ | ⟨c', vid⟩
  · exact ⟨[⟨.Const, i.vals.length, none, none⟩], rfl, by simp⟩
  · exact ⟨[], by simp, by simp⟩

theorem recOp_ops (i : Inner S) (o : OpCode) (v : S) (a : AFloat S) (b : Option (AFloat S)) :
    ∃ l x, (recOp i o v a b).2.ops = i.ops ++ l ++ [⟨o, (recOp i o v a b).1, some (ensureI i a).1, x⟩] ∧
      ∀ op ∈ l, op.opcode = .Const := by
  obtain ⟨l1, h1, h1'⟩ := ensureI_ops i a
  cases b with
  | none => exact ⟨l1, none, by simp [recOp, ensureOptI, Inner.record, h1], h1'⟩
  | some b =>
    obtain ⟨l2, h2, h2'⟩ := ensureI_ops (ensureI i a).2 b
    refine ⟨l1 ++ l2, some (ensureI (ensureI i a).2 b).1, ?_, ?_⟩
    · simp [recOp, ensureOptI, Inner.record, h2, h1]
    · intro op ho
      rcases List.mem_append.mp ho with h | h
      · exact h1' op h
      · exact h2' op h

theorem filter_const {l : List Operation} (h : ∀ op ∈ l, op.opcode = .Const) :
    (l.filter fun op => decide (op.opcode = .Abs)) = [] := by
  rw [List.filter_eq_nil_iff]
  intro op ho
  rw [h op ho]; decide

theorem recOp_fresh {c : Nat} {i : Inner S} {o : OpCode} {v : S} {a : AFloat S} {b : Option (AFloat S)} (hg : i.Good)
    (ha : Rep c i a) (hb : ∀ b', b = some b' → Rep c i b') : i.vals.length ≤ (recOp i o v a b).1 := by
  obtain ⟨g1, e1, -⟩ := ensureI_spec hg ha
  cases b with
  | none => exact e1.vals.length_le
  | some b =>
    obtain ⟨g2, e2, -⟩ := ensureI_spec g1 ((hb b rfl).mono e1)
    exact Nat.le_trans e1.vals.length_le e2.vals.length_le

theorem Arg.get_var {env : List (AFloat S)} {q : Nat} {x : AFloat S} (ha : Arg.get env (.var q) = .ok x) :
    env[q]? = some x := by
  simp only [Arg.get] at ha
  rcases hk : env[q]? with _ | y
  · rw [hk] at ha; cases ha
  · rw [hk] at ha
    simpa using ha

/-- A run keeps track of the identity of variables. -/
theorem Prog.run_ids (P : List (Arg S) → Prop) (p : Prog S) {env : List (AFloat S)} {w : World S} {c n : Nat}
    {i : Inner S} {used : List Nat}
    (hc : w.cells c = some ⟨n, i⟩) (hn : 1 ≤ n) (hp : i.poisoned = false) (hg : i.Good)
    (hr : ∀ a ∈ env, Rep c i a) (hinj : IdsInj env) (hP : p.Outs P env.length) {y : List (AFloat S)} {w' : World S}
    (hrun : p.run env w = (.ok y, w')) :
    ∃ j E outs, w' = w.setCell c (some ⟨n, j⟩) ∧ j.Good ∧ i.Ext j ∧ i.SameIO j ∧ (∀ a ∈ E, Rep c j a) ∧ IdsInj E ∧ P outs ∧
      outs.mapM (Arg.get E) = .ok y ∧
      (p.NoConstOps → (∀ a ∈ env, a.ctx.isSome = true) → ∀ a ∈ E, a.ctx.isSome = true) ∧
      (p.AbsOnce env.length used → AbsInv c env used i → ∃ used', AbsInv c E used' j) ∧
      (∀ Q : OpCode → Prop, Q .Const → p.Ops Q → (∀ op ∈ i.ops, Q op.opcode) → ∀ op ∈ j.ops, Q op.opcode) := by
  induction p generalizing env w i used with
  | ret outs =>
    simp only [Prog.run, M.lift_apply, Prod.mk.injEq] at hrun
    refine ⟨i, env, outs, ?_, hg, Inner.Ext.refl i, ⟨rfl, rfl⟩, hr, hinj, hP, hrun.1, fun _ h => h, fun _ h => ⟨used, h⟩, fun _ _ _ h => h⟩
    rw [World.setCell_self hc]; exact hrun.2.symm
  | panic => simp [Prog.run] at hrun
  | op o a b k ih =>
    rcases ha : a.get env with e | x
    · simp only [Prog.run, M.bind_apply, M.lift_apply, ha] at hrun; cases hrun
    rcases hb : Arg.getOpt env b with e | z
    · simp only [Prog.run, M.bind_apply, M.lift_apply, ha, hb] at hrun; cases hrun
    by_cases hok : arityOk o z = true
    swap
    · simp only [Prog.run, M.bind_apply, M.lift_apply, ha, hb] at hrun
      rw [if_neg hok] at hrun
      cases hrun
    have hx : Rep c i x := Arg.get_prop hr (Rep.lit c i) ha
    have hz : ∀ b', z = some b' → Rep c i b' := Arg.getOpt_prop hr (Rep.lit c i) hb
    by_cases hs : x.ctx.isSome = true ∨ ∃ b', z = some b' ∧ b'.ctx.isSome = true
    · have hf := fromOp_live hok hx.inCtx (fun b' hb' => (hz b' hb').inCtx) hs hc hn hp
      have hspec := recOp_spec hg hx hz hok
      have hv : opVal o x z = zfun o x.v (z.getD x).v := rfl
      rw [← hv] at hspec
      have hfresh := recOp_fresh (o := o) (v := opVal o x z) hg hx hz
      obtain ⟨l, x2, hops, hl⟩ := recOp_ops i o (opVal o x z) x z
      generalize hrec : recOp i o (opVal o x z) x z = r at hf hspec hfresh hops
      let res : AFloat S := ⟨opVal o x z, opDval o x z, some (c, r.1)⟩
      have hres : Rep c r.2 res := by
        intro c' vid hcv
        simp only [res, Option.some.injEq, Prod.mk.injEq] at hcv
        obtain ⟨rfl, rfl⟩ := hcv
        exact ⟨rfl, hspec.lt, hspec.val⟩
      have hinj' : IdsInj (env ++ [res]) := hinj.append hr (by
        intro c' u h
        simp only [res, Option.some.injEq, Prod.mk.injEq] at h
        omega)
      have hrun' : (Prog.op o a b k).run env w =
          (k env.length res.v).run (env ++ [res]) (w.setCell c (some ⟨n, r.2⟩)) := by
        simp only [Prog.run, M.bind_apply, M.lift_apply, ha, hb, hok, if_true, hf, res]
      rw [hrun'] at hrun
      have hlen : (env ++ [res]).length = env.length + 1 := by simp
      have main := fun used' => ih env.length res.v (env := env ++ [res]) (w := w.setCell c (some ⟨n, r.2⟩))
        (i := r.2) (used := used') (by simp) (by rw [hspec.ext.poisoned]; exact hp) hspec.good (by
          intro a ha
          simp only [List.mem_append, List.mem_singleton] at ha
          rcases ha with ha | rfl
          · exact (hr a ha).mono hspec.ext
          · exact hres) hinj' (by rw [hlen]; exact hP res.v) hrun
      have hsome : ∀ {E : List (AFloat S)}, ((k env.length res.v).NoConstOps → (∀ a ∈ env ++ [res], a.ctx.isSome = true) →
          ∀ a ∈ E, a.ctx.isSome = true) → (Prog.op o a b k).NoConstOps → (∀ a ∈ env, a.ctx.isSome = true) →
          ∀ a ∈ E, a.ctx.isSome = true := by
        intro E h1 h2 h3
        refine h1 (h2.2 _ _) ?_
        intro a ha
        rcases List.mem_append.mp ha with ha | ha
        · exact h3 a ha
        · rw [List.mem_singleton] at ha; subst ha; rfl
      have hQ : ∀ {j : Inner S}, (∀ Q : OpCode → Prop, Q .Const → (k env.length res.v).Ops Q → (∀ op ∈ r.2.ops, Q op.opcode) →
          ∀ op ∈ j.ops, Q op.opcode) → ∀ Q : OpCode → Prop, Q .Const → (Prog.op o a b k).Ops Q →
          (∀ op ∈ i.ops, Q op.opcode) → ∀ op ∈ j.ops, Q op.opcode := by
        intro j h Q h1 h2 h3
        refine h Q h1 (h2.2 _ _) ?_
        rw [hops]
        intro op hop
        rcases List.mem_append.mp hop with hop | hop
        · rcases List.mem_append.mp hop with hop | hop
          · exact h3 op hop
          · rw [hl op hop]; exact h1
        · rw [List.mem_singleton] at hop
          subst hop
          exact h2.1
      -- operations other than abs keep the invariant
      have hother : o ≠ .Abs → AbsInv c env used i → AbsInv c (env ++ [res]) used r.2 := by
        intro ho hA
        refine ⟨hinj', ?_, ?_⟩
        · intro op hop hab
          rw [hops] at hop
          rcases List.mem_append.mp hop with hop | hop
          · rcases List.mem_append.mp hop with hop | hop
            · obtain ⟨q, hq, h⟩ := hA.args op hop hab
              exact ⟨q, hq, getElem?_append_bind h⟩
            · rw [hl op hop] at hab; cases hab
          · rw [List.mem_singleton] at hop
            subst hop
            exact absurd hab ho
        · rw [hops, List.filter_append, List.filter_append, filter_const hl]
          have : ([(⟨o, r.1, some (ensureI i x).1, x2⟩ : Operation)].filter fun op => decide (op.opcode = .Abs)) = [] := by
            rw [List.filter_eq_nil_iff]
            intro op hop
            rw [List.mem_singleton] at hop
            subst hop
            simpa using ho
          rw [this, List.append_nil, List.append_nil]
          exact hA.nodup
      by_cases hab : o = .Abs
      · subst hab
        obtain ⟨q, hq, hb'⟩ : ∃ q, a = .var q ∧ z = none := by
          have hzn : z = none := by
            cases z with
            | none => rfl
            | some z => simp [arityOk, OpCode.isBinary] at hok
          subst hzn
          cases a with
          | var q => exact ⟨q, rfl, rfl⟩
          | lit v =>
            simp only [Arg.get] at ha
            have : x = AFloat.ofScalar v := by injection ha with ha; exact ha.symm
            subst this
            rcases hs with h | ⟨b', h, -⟩
            · simp [AFloat.ofScalar, AFloat.new] at h
            · cases h
        subst hq hb'
        obtain ⟨j, E, outs, m1, m2, m3, m4, m5, m6, m7, m8, m10, m9, m11⟩ := main (q :: used)
        refine ⟨j, E, outs, by rw [m1, World.setCell_setCell], m2, hspec.ext.trans m3, hspec.io.trans m4, m5, m6, m7, m8, hsome m10, ?_, hQ m11⟩
        intro hA hI
        apply m9
        · rw [hlen]; exact hA.2 res.v
        have hxs : x.ctx.isSome = true := by
          rcases hs with h | ⟨b', h, -⟩
          · exact h
          · cases h
        obtain ⟨⟨c', u⟩, hxc⟩ := Option.isSome_iff_exists.mp hxs
        have hcc : c' = c := (hx c' u hxc).1
        subst hcc
        have hen : (ensureI i x).1 = u := by simp [ensureI, hxc]
        have hxq : env[q]? = some x := Arg.get_var ha
        have hqc : (env[q]?.bind AFloat.ctx) = some (c', u) := by rw [hxq]; exact hxc
        refine ⟨hinj', ?_, ?_⟩
        · intro op hop hab
          rw [hops] at hop
          rcases List.mem_append.mp hop with hop | hop
          · rcases List.mem_append.mp hop with hop | hop
            · obtain ⟨q, hq, h⟩ := hI.args op hop hab
              exact ⟨q, by simp [hq], getElem?_append_bind h⟩
            · rw [hl op hop] at hab; cases hab
          · rw [List.mem_singleton] at hop
            subst hop
            refine ⟨q, by simp, ?_⟩
            rw [hen]
            exact getElem?_append_bind hqc
        · rw [hops, List.filter_append, List.filter_append, filter_const hl, List.append_nil, List.map_append]
          have : ([(⟨.Abs, r.1, some (ensureI i x).1, x2⟩ : Operation)].filter fun op => decide (op.opcode = .Abs)) =
              [⟨.Abs, r.1, some (ensureI i x).1, x2⟩] := by simp
          rw [this, hen]
          refine List.nodup_append.mpr ⟨hI.nodup, by simp, ?_⟩
          intro v hv v' hv' hne
          simp only [List.map_cons, List.map_nil, List.mem_singleton] at hv'
          subst hne hv'
          obtain ⟨op, hop, hop'⟩ := List.mem_map.mp hv
          rw [List.mem_filter] at hop
          obtain ⟨q', hq', h⟩ := hI.args op hop.1 (by simpa using hop.2)
          rw [hop'] at h
          have : q' = q := hI.inj q' q c' _ h hqc
          subst this
          exact hA.1 hq'
      · obtain ⟨j, E, outs, m1, m2, m3, m4, m5, m6, m7, m8, m10, m9, m11⟩ := main used
        refine ⟨j, E, outs, by rw [m1, World.setCell_setCell], m2, hspec.ext.trans m3, hspec.io.trans m4, m5, m6, m7, m8, hsome m10, ?_, hQ m11⟩
        intro hA hI
        apply m9 _ (hother hab hI)
        rw [hlen]
        cases o <;> first | exact absurd rfl hab | (cases a <;> exact hA res.v)
    · have hxn : x.ctx = none := by
        rcases hx' : x.ctx with _ | q
        · rfl
        · exact absurd (Or.inl (by simp [hx'])) hs
      have hzn : ∀ b', z = some b' → b'.ctx = none := by
        intro b' hb'
        rcases hx' : b'.ctx with _ | q
        · rfl
        · exact absurd (Or.inr ⟨b', hb', by simp [hx']⟩) hs
      have hf := fromOp_free w hok hxn hzn
      let res : AFloat S := ⟨opVal o x z, opDval o x z, none⟩
      have hinj' : IdsInj (env ++ [res]) := hinj.append hr (by intro c' u h; cases h)
      have hrun' : (Prog.op o a b k).run env w = (k env.length res.v).run (env ++ [res]) w := by
        simp only [Prog.run, M.bind_apply, M.lift_apply, ha, hb, hok, if_true, hf, res]
      rw [hrun'] at hrun
      have hlen : (env ++ [res]).length = env.length + 1 := by simp
      have main := fun used' => ih env.length res.v (env := env ++ [res]) (w := w) (i := i) (used := used') hc hp hg (by
          intro a ha
          simp only [List.mem_append, List.mem_singleton] at ha
          rcases ha with ha | rfl
          · exact hr a ha
          · exact Rep.free rfl) hinj' (by rw [hlen]; exact hP res.v) hrun
      have hsome : ∀ {E : List (AFloat S)}, ((k env.length res.v).NoConstOps → (∀ a ∈ env ++ [res], a.ctx.isSome = true) →
          ∀ a ∈ E, a.ctx.isSome = true) → (Prog.op o a b k).NoConstOps → (∀ a ∈ env, a.ctx.isSome = true) →
          ∀ a ∈ E, a.ctx.isSome = true := by
        intro E h1 h2 h3
        exfalso
        rcases h2.1 with ⟨q, rfl⟩ | ⟨q, rfl⟩
        · have := Arg.get_var ha
          have := h3 x (List.mem_of_getElem? this)
          rw [hxn] at this; cases this
        · simp only [Arg.getOpt] at hb
          rcases hq : Arg.get env (.var q) with e | z'
          · rw [hq] at hb; cases hb
          · rw [hq] at hb
            have hz' : z = some z' := by injection hb with hb; exact hb.symm
            have := h3 z' (List.mem_of_getElem? (Arg.get_var hq))
            rw [hzn z' hz'] at this; cases this
      have hmono : ∀ used', used ⊆ used' → AbsInv c env used i → AbsInv c (env ++ [res]) used' i := by
        intro used' hu hI
        refine ⟨hinj', ?_, hI.nodup⟩
        intro op hop hab
        obtain ⟨q, hq, h⟩ := hI.args op hop hab
        exact ⟨q, hu hq, getElem?_append_bind h⟩
      by_cases hab : o = .Abs ∧ ∃ q, a = .var q
      · obtain ⟨rfl, q, rfl⟩ := hab
        obtain ⟨j, E, outs, m1, m2, m3, m4, m5, m6, m7, m8, m10, m9, m11⟩ := main (q :: used)
        refine ⟨j, E, outs, m1, m2, m3, m4, m5, m6, m7, m8, hsome m10,
          fun hA hI => m9 ?_ (hmono _ (by simp) hI), fun Q h1 h2 h3 => m11 Q h1 (h2.2 _ _) h3⟩
        rw [hlen]; exact hA.2 res.v
      · obtain ⟨j, E, outs, m1, m2, m3, m4, m5, m6, m7, m8, m10, m9, m11⟩ := main used
        refine ⟨j, E, outs, m1, m2, m3, m4, m5, m6, m7, m8, hsome m10,
          fun hA hI => m9 ?_ (hmono _ (by simp) hI), fun Q h1 h2 h3 => m11 Q h1 (h2.2 _ _) h3⟩
        rw [hlen]
        cases o <;> cases a <;> first | exact hA res.v | exact absurd ⟨rfl, _, rfl⟩ hab

/-! ## Dependents -/

theorem depsInner_ids {c : Nat} {i : Inner S} (as : List (AFloat S)) (hg : i.Good) (hr : ∀ a ∈ as, Rep c i a) :
    ∃ ds l, (depsInner i as).deps = i.deps ++ ds ∧ ds.length = as.length ∧ (depsInner i as).ops = i.ops ++ l ∧
      (∀ op ∈ l, op.opcode = .Const) ∧ (∀ (p : Nat) (a : AFloat S) u, as[p]? = some a → a.ctx = some (c, u) → ds[p]? = some u) ∧
      (∀ (p : Nat) (a : AFloat S), as[p]? = some a → a.ctx = none → ∃ d, ds[p]? = some d ∧ i.vals.length ≤ d) ∧
      (∀ (p q : Nat) (a : AFloat S) d, as[p]? = some a → a.ctx = none → ds[p]? = some d → ds[q]? = some d → p = q) := by
  induction as generalizing i with
  | nil => exact ⟨[], [], by simp [depsInner], rfl, by simp [depsInner], by simp, by simp, by simp, by simp⟩
  | cons a as ih =>
    obtain ⟨g1, e1, io1, l1, v1, s1⟩ := ensureI_spec hg (hr a (by simp))
    have e2 := Inner.ext_addDep (ensureI i a).2 (ensureI i a).1
    have hr2 : ∀ b ∈ as, Rep c { (ensureI i a).2 with deps := (ensureI i a).2.deps ++ [(ensureI i a).1] } b :=
      fun b hb => ((hr b (by simp [hb])).mono e1).mono e2
    obtain ⟨ds, l, h1, h2, h3, h4, h5, h6, h7⟩ := ih
      (i := { (ensureI i a).2 with deps := (ensureI i a).2.deps ++ [(ensureI i a).1] }) (g1.addDep l1) hr2
    obtain ⟨l', k1, k2⟩ := ensureI_ops i a
    have hle : i.vals.length ≤ (ensureI i a).2.vals.length := e1.vals.length_le
    have htail : ∀ (p : Nat) d, ds[p]? = some d → (a.ctx = none → d ≠ (ensureI i a).1) := by
      intro p d hd hn hdd
      have hpl : p < as.length := by rw [← h2]; exact (List.getElem?_eq_some_iff.mp hd).1
      have hap : as[p]? = some as[p] := List.getElem?_eq_getElem hpl
      rcases hctx : as[p].ctx with _ | ⟨c', u⟩
      · obtain ⟨d', h8, h9⟩ := h6 p _ hap hctx
        rw [hd] at h8
        have : d = d' := by injection h8
        simp only at h9
        omega
      · have hrep := hr as[p] (List.mem_cons_of_mem _ (List.getElem_mem hpl)) c' u hctx
        rw [hrep.1] at hctx
        have := h5 p _ u hap hctx
        rw [hd] at this
        have : d = u := by injection this
        have hen : (ensureI i a).1 = i.vals.length := by simp [ensureI, hn, Inner.record]
        have := hrep.2.1
        omega
    refine ⟨(ensureI i a).1 :: ds, l' ++ l, ?_, by simp [h2], ?_, ?_, ?_, ?_, ?_⟩
    · rw [depsInner, h1, io1.2]; simp
    · rw [depsInner, h3]; simp [k1]
    · intro op hop
      rcases List.mem_append.mp hop with h | h
      · exact k2 op h
      · exact h4 op h
    · intro p b u hb hu
      cases p with
      | zero =>
        simp only [List.getElem?_cons_zero, Option.some.injEq] at hb
        subst hb
        simp [ensureI, hu]
      | succ p => exact h5 p b u (by simpa using hb) hu
    · intro p b hb hn
      cases p with
      | zero =>
        simp only [List.getElem?_cons_zero, Option.some.injEq] at hb
        subst hb
        exact ⟨i.vals.length, by simp [ensureI, hn, Inner.record], Nat.le_refl _⟩
      | succ p =>
        obtain ⟨d, h8, h9⟩ := h6 p b (by simpa using hb) hn
        exact ⟨d, by simpa using h8, Nat.le_trans hle h9⟩
    · intro p q b d hb hn hp hq
      cases p with
      | zero =>
        simp only [List.getElem?_cons_zero, Option.some.injEq] at hb hp
        subst hb
        cases q with
        | zero => rfl
        | succ q => exact absurd hp.symm (htail q d (by simpa using hq) hn)
      | succ p =>
        simp only [List.getElem?_cons_succ] at hb hp
        cases q with
        | zero =>
          exfalso
          simp only [List.getElem?_cons_zero, Option.some.injEq] at hq
          obtain ⟨d', h8, h9⟩ := h6 p b hb hn
          rw [hp] at h8
          have : d = d' := by injection h8
          simp only at h9
          omega
        | succ q =>
          have := h7 p q b d hb hn hp (by simpa using hq)
          omega

theorem mapM_get_length {E : List (AFloat S)} {outs : List (Arg S)} {y : List (AFloat S)}
    (h : outs.mapM (Arg.get E) = .ok y) : y.length = outs.length := by
  induction outs generalizing y with
  | nil => simp [pure, Except.pure] at h; subst h; rfl
  | cons a outs ih =>
    rw [List.mapM_cons] at h
    rcases h1 : Arg.get E a with e | x
    · rw [h1] at h; cases h
    rcases h2 : outs.mapM (Arg.get E) with e | xs
    · rw [h1, h2] at h; cases h
    rw [h1, h2] at h
    have : y = x :: xs := by injection h with h; exact h.symm
    rw [this, List.length_cons, List.length_cons, ih h2]

theorem mapM_get_getElem {E : List (AFloat S)} {outs : List (Arg S)} {y : List (AFloat S)}
    (h : outs.mapM (Arg.get E) = .ok y) {p : Nat} {a : AFloat S} (hp : y[p]? = some a) :
    ∃ o, outs[p]? = some o ∧ Arg.get E o = .ok a := by
  induction outs generalizing y p with
  | nil => simp [pure, Except.pure] at h; subst h; simp at hp
  | cons b outs ih =>
    rw [List.mapM_cons] at h
    rcases h1 : Arg.get E b with e | x
    · rw [h1] at h; cases h
    rcases h2 : outs.mapM (Arg.get E) with e | xs
    · rw [h1, h2] at h; cases h
    rw [h1, h2] at h
    have : y = x :: xs := by injection h with h; exact h.symm
    subst this
    cases p with
    | zero =>
      simp only [List.getElem?_cons_zero, Option.some.injEq] at hp
      subst hp
      exact ⟨b, rfl, h1⟩
    | succ p => exact ih h2 (by simpa using hp)

/-- What is known about the ids of the tape of a single function. -/
structure TapeIds (p : Prog S) (P : List (Arg S) → Prop) (n : Nat) (t : Tape S) : Prop where
  outs : p.Outs P n → ∃ outs, P outs ∧ outs.length = t.deps.length ∧
    (∀ (a b d : Nat), t.deps[a]? = some d → t.deps[b]? = some d →
      a = b ∨ ∃ i, outs[a]? = some (.var i) ∧ outs[b]? = some (.var i)) ∧
    (p.NoConstOps → ∀ (a b i : Nat), outs[a]? = some (.var i) → outs[b]? = some (.var i) → t.deps[a]? = t.deps[b]?)
  abs : p.AbsOnce n [] → (zIds t).Nodup
  ops : ∀ Q : OpCode → Prop, Q .Const → p.Ops Q → ∀ op ∈ t.ops, Q op.opcode

theorem Prog.outs_true (p : Prog S) (n : Nat) : p.Outs (fun _ => True) n := by
  induction p generalizing n with
  | ret _ => trivial
  | panic => trivial
  | op o a b k ih => exact fun v => ih _ _ _

/-- The ids of the tape of a single function. -/
theorem Func.tape_ids {n m : Nat} {p : List S → Prog S} {x : List S} {w w' : World S} {t : Tape S}
    (hw : w.nextId < usizeMax) (ht : (Func.simple n m p).tape x w = (.ok t, w')) (P : List (Arg S) → Prop) :
    TapeIds (p x) P x.length t := by
  let c := w.nextId
  let w0 : World S := { w with nextId := (w.nextId + 1) % 2 ^ 64 }
  let i0 : Inner S := indepsInner (Inner.construct c) x
  have hx : (x.map AFloat.ofScalar).map AFloat.v = x := by
    rw [List.map_map]; simp [Function.comp_def, AFloat.ofScalar, AFloat.new]
  have hnew : (AContext.new : M (World S) AContext) w =
      (.ok ⟨c⟩, w0.setCell c (some ⟨1, Inner.construct c⟩)) := by
    simp only [AContext.new]; rw [if_pos hw]
  have hind := setIndepAll_live (w := w0.setCell c (some ⟨1, Inner.construct c⟩)) (c := c) (n := 1)
    (i := Inner.construct c) (x.map AFloat.ofScalar) (World.setCell_same _ _ _) rfl
  rw [World.setCell_setCell, hx] at hind
  have hg0 : i0.Good := indepsInner_good (Inner.good_construct c) x
  have hi0 : i0 = ⟨c, List.range x.length, [], [], x, false⟩ := by
    simp only [i0, indepsInner_eq, Inner.construct, List.nil_append, List.length_nil, List.range_eq_range']
  generalize hinp : indepVars (Inner.construct (S := S) c).cid (Inner.construct (S := S) c).vals.length
    (x.map AFloat.ofScalar) = inp at hind
  have hlen : inp.length = x.length := by rw [← hinp, indepVars_length]; simp
  have hget : ∀ k (h : k < inp.length), inp[k] = ⟨x[k]'(by omega), Flt.zero, some (c, k)⟩ := by
    intro k h
    subst hinp
    rw [indepVars_getElem]
    simp [Inner.construct, AFloat.ofScalar, AFloat.new]
  have hrep0 : ∀ a ∈ inp, Rep c i0 a := by
    intro a ha
    obtain ⟨k, hk, rfl⟩ := List.mem_iff_getElem.mp ha
    rw [hget k hk, hi0]
    intro c' vid hcv
    simp only [Option.some.injEq, Prod.mk.injEq] at hcv
    obtain ⟨rfl, rfl⟩ := hcv
    refine ⟨rfl, by simp only; omega, ?_⟩
    have : k < x.length := by omega
    simp [fn, this]
  have hsome : ∀ a ∈ inp, a.ctx.isSome = true := by
    intro a ha
    obtain ⟨k, hk, rfl⟩ := List.mem_iff_getElem.mp ha
    rw [hget k hk]; rfl
  have hinj : IdsInj inp := by
    intro p q c' u h1 h2
    have key : ∀ {p : Nat}, (inp[p]?.bind AFloat.ctx) = some (c', u) → p = u := by
      intro p h
      rcases hp : inp[p]? with _ | y
      · rw [hp] at h; cases h
      · rw [hp] at h
        obtain ⟨hl, he⟩ := List.getElem?_eq_some_iff.mp hp
        rw [hget p hl] at he
        subst he
        simpa using (by simpa using h : _ ∧ p = u).2
    rw [key h1, key h2]
  have hvin : inp.map AFloat.v = x := by
    apply List.ext_getElem (by simpa using hlen)
    intro k h1 h2
    simp only [List.length_map] at h1
    rw [List.getElem_map, hget k h1]
  rcases hrun : (p (inp.map AFloat.v)).run inp (w0.setCell c (some ⟨1, i0⟩)) with ⟨e | y, w1⟩
  · exfalso
    have hee : (Func.simple n m p).eval inp (w0.setCell c (some ⟨1, i0⟩)) = (.error e, w1) := by
      simp only [Func.eval]; exact hrun
    have : ((Func.simple n m p).tape x w).1 = .error e := by
      unfold Func.tape
      rw [M.bind_ok hnew]
      unfold AContext.inScope
      simp only
      rw [M.bind_ok hind, M.bind_error hee]
    rw [ht] at this
    cases this
  have hev : (Func.simple n m p).eval inp (w0.setCell c (some ⟨1, i0⟩)) = (.ok y, w1) := by
    simp only [Func.eval]; exact hrun
  rw [hvin] at hrun
  have main := fun (Q : List (Arg S) → Prop) (hQ : (p x).Outs Q x.length) => Prog.run_ids Q (p x) (env := inp) (w := w0.setCell c (some ⟨1, i0⟩)) (c := c) (n := 1)
    (i := i0) (used := []) (World.setCell_same _ _ _) (Nat.le_refl 1) (by rw [hi0]) hg0 hrep0 hinj
    (by rw [hlen]; exact hQ) hrun
  -- the tape
  have htape : ∀ j : Inner S, w1 = (w0.setCell c (some ⟨1, i0⟩)).setCell c (some ⟨1, j⟩) → j.Good → i0.Ext j →
      (∀ a ∈ y, Rep c j a) → t = (depsInner j y).tape := by
    intro j hw1 hgj hej hrj
    have hpj : j.poisoned = false := by rw [hej.poisoned, hi0]
    have hcj : j.cid = c := by rw [hej.cid, hi0]
    rw [World.setCell_setCell] at hw1
    have hdep := setDepSlice_live (w := w1) (c := c) (n := 1) (i := j) y (by rw [hw1]; simp) hpj hcj hgj hrj
    have hd := depsInner_spec y hgj hrj
    rw [hw1, World.setCell_setCell] at hdep
    have htp := tape_live (w := w0.setCell c (some ⟨1, depsInner j y⟩)) (c := c) (n := 1) (i := depsInner j y)
      (World.setCell_same _ _ _) (by rw [hd.ext.poisoned]; exact hpj)
    have : ((Func.simple n m p).tape x w).1 = .ok (depsInner j y).tape := by
      unfold Func.tape
      rw [M.bind_ok hnew]
      unfold AContext.inScope
      simp only
      rw [M.bind_ok hind, M.bind_ok hev, hw1, M.bind_ok hdep, htp]
    rw [ht] at this
    injection this
  have hyrep : ∀ {E : List (AFloat S)} {outs : List (Arg S)} {j : Inner S}, (∀ a ∈ E, Rep c j a) →
      outs.mapM (Arg.get E) = .ok y → ∀ a ∈ y, Rep c j a := by
    intro E outs j hE hm a ha
    obtain ⟨k, hk, rfl⟩ := List.mem_iff_getElem.mp ha
    obtain ⟨o, -, ho⟩ := mapM_get_getElem hm (List.getElem?_eq_getElem hk)
    exact Arg.get_prop hE (Rep.lit c j) ho
  constructor
  · intro hP
    obtain ⟨j, E, outs, m1, m2, m3, m4, m5, m6, m7, m8, m10, -, -⟩ := main P hP
    have hyr := hyrep m5 m8
    rw [htape j m1 m2 m3 hyr]
    obtain ⟨ds, l, d1, d2, d3, d4, d5, d6, d7⟩ := depsInner_ids y m2 hyr
    have hdeps : (depsInner j y).tape.deps = ds := by
      show (depsInner j y).deps = ds
      rw [d1, m4.2, hi0]; rfl
    have hol := mapM_get_length m8
    refine ⟨outs, m7, by rw [hdeps, d2, hol], ?_, ?_⟩
    · rw [hdeps]
      intro a b d ha hb
      by_cases hab : a = b
      · exact Or.inl hab
      right
      have hal : a < y.length := by rw [← d2]; exact (List.getElem?_eq_some_iff.mp ha).1
      have hbl : b < y.length := by rw [← d2]; exact (List.getElem?_eq_some_iff.mp hb).1
      have hya := List.getElem?_eq_getElem hal
      have hyb := List.getElem?_eq_getElem hbl
      rcases hca : y[a].ctx with _ | ⟨c1, u1⟩
      · exact absurd (d7 a b _ d hya hca ha hb) hab
      rcases hcb : y[b].ctx with _ | ⟨c2, u2⟩
      · exact absurd (d7 b a _ d hyb hcb hb ha).symm hab
      have e1 := (hyr y[a] (by simp) c1 u1 hca).1
      have e2 := (hyr y[b] (by simp) c2 u2 hcb).1
      subst e1 e2
      have f1 := d5 a _ u1 hya hca
      have f2 := d5 b _ u2 hyb hcb
      rw [ha] at f1
      rw [hb] at f2
      have g1 : d = u1 := by injection f1
      have g2 : d = u2 := by injection f2
      subst g1 g2
      obtain ⟨o1, p1, q1⟩ := mapM_get_getElem m8 hya
      obtain ⟨o2, p2, q2⟩ := mapM_get_getElem m8 hyb
      have isvar : ∀ {o : Arg S} {z : AFloat S}, Arg.get E o = .ok z → z.ctx = some (c, d) →
          ∃ i, o = .var i ∧ (E[i]?.bind AFloat.ctx) = some (c, d) := by
        intro o z h1 h2
        cases o with
        | var i => exact ⟨i, rfl, by rw [Arg.get_var h1]; exact h2⟩
        | lit v =>
          simp only [Arg.get] at h1
          have : z = AFloat.ofScalar v := by injection h1 with h1; exact h1.symm
          subst this
          cases h2
      obtain ⟨i1, rfl, r1⟩ := isvar q1 hca
      obtain ⟨i2, rfl, r2⟩ := isvar q2 hcb
      have := m6 i1 i2 c d r1 r2
      subst this
      exact ⟨i1, p1, p2⟩
    · rw [hdeps]
      intro hnc a b i ha hb
      have hE := m10 hnc hsome
      have key : ∀ {a : Nat}, outs[a]? = some (.var i) → ∃ z u, E[i]? = some z ∧ z.ctx = some (c, u) ∧ ds[a]? = some u := by
        intro a ha
        have hal : a < y.length := by rw [hol]; exact (List.getElem?_eq_some_iff.mp ha).1
        have hya := List.getElem?_eq_getElem hal
        obtain ⟨o, p1, q1⟩ := mapM_get_getElem m8 hya
        rw [ha] at p1
        have : o = .var i := by injection p1 with p1; exact p1.symm
        subst this
        have hEi := Arg.get_var q1
        obtain ⟨⟨c', u⟩, hc'⟩ := Option.isSome_iff_exists.mp (hE _ (List.mem_of_getElem? hEi))
        have := (m5 _ (List.mem_of_getElem? hEi) c' u hc').1
        subst this
        exact ⟨_, u, hEi, hc', d5 a _ u hya hc'⟩
      obtain ⟨z1, u1, k1, k2, k3⟩ := key ha
      obtain ⟨z2, u2, l1, l2, l3⟩ := key hb
      rw [k1] at l1
      injection l1 with l1
      subst l1
      rw [k2] at l2
      injection l2 with l2
      injection l2 with _ l2
      rw [k3, l3, l2]
  · intro hA
    obtain ⟨j, E, outs, m1, m2, m3, m4, m5, m6, m7, m8, -, m9, -⟩ := main (fun _ => True) (Prog.outs_true _ _)
    have hyr := hyrep m5 m8
    rw [htape j m1 m2 m3 hyr]
    obtain ⟨ds, l, d1, d2, d3, d4, d5, d6, d7⟩ := depsInner_ids y m2 hyr
    obtain ⟨used', hI⟩ := m9 (by rw [hlen]; exact hA) ⟨hinj, by rw [hi0]; simp, by rw [hi0]; simp⟩
    show (((depsInner j y).tape.ops.filter _).map Operation.a1).Nodup
    have : (depsInner j y).tape.ops = j.ops ++ l := d3
    rw [this, List.filter_append]
    have := filter_const d4
    have h2 := hI.nodup
    simp only [List.map_append]
    convert h2 using 1
    convert List.append_nil _ using 2
    convert congrArg (List.map Operation.a1) this using 2
    simp
  · intro Q h1 h2
    obtain ⟨j, E, outs, m1, m2, m3, m4, m5, m6, m7, m8, -, -, m9⟩ := main (fun _ => True) (Prog.outs_true _ _)
    have hyr := hyrep m5 m8
    rw [htape j m1 m2 m3 hyr]
    obtain ⟨ds, l, d1, d2, d3, d4, d5, d6, d7⟩ := depsInner_ids y m2 hyr
    have : (depsInner j y).tape.ops = j.ops ++ l := d3
    rw [this]
    intro op hop
    rcases List.mem_append.mp hop with hop | hop
    · exact m9 Q h1 h2 (by rw [hi0]; simp) op hop
    · rw [d4 op hop]; exact h1

end Adv
