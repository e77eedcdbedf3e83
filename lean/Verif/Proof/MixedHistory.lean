import Verif.Proof.Mixed

/-!
# Invariants of histories with several precisions

The structure of recordings does not depend on values: forgetting all numbers turns a history with several precisions
into one over the scalar type with a single element. The values are treated by an invariant of their own.
-/

set_option linter.unusedSectionVars false

namespace Adv
open scoped Adv

/-- The trivial scalar type. -/
@[instance_reducible]
def unitFlt : Flt Unit where
  zero := ()
  one := ()
  half := ()
  ofInt _ := ()
  add _ _ := ()
  sub _ _ := ()
  mul _ _ := ()
  div _ _ := ()
  neg _ := ()
  abs _ := ()
  sqrt _ := ()
  sin _ := ()
  cos _ := ()
  tan _ := ()
  exp _ := ()
  ln _ := ()
  asin _ := ()
  acos _ := ()
  atan _ := ()
  powf _ _ := ()
  powi _ _ := ()
  lt _ _ := false
  eq _ _ := true
  toI64 _ := none

attribute [local instance] unitFlt

variable {P : Type} {T : P → Type} [∀ p, Flt (T p)] {F : Type}
  {up : ∀ p, T p → F} {conv : ∀ p q, T p → T q} {okv : ∀ p q, T p → T q → Prop}

/-- Forget the numbers of a variable. -/
def forget {S : Type} (a : AFloat S) : AFloat Unit := ⟨(), (), a.ctx⟩

theorem forget_eq {S : Type} (a : AFloat S) : AFloat.cast (fun _ => ()) a = forget a := rfl

/-- Forget all numbers. -/
def MState.forget (s : MState T F) : HState Unit :=
  ⟨s.world.map fun _ => (), s.handles, s.vars.map fun x => Adv.forget x.2⟩

theorem natl_forget_fromOp {S : Type} [Flt S] (up : S → F) (o : OpCode) (a : AFloat S) (b : Option (AFloat S)) :
    Natl (fun _ : F => ()) forget (AFloat.fromOpVia up o a b) (AFloat.fromOp o (forget a) (b.map forget)) := by
  have h := natl_fromOp (up := up) (up' := (id : Unit → Unit)) (φ := fun _ : S => ()) (χ := fun _ : F => ())
    (fun s => rfl) (o := o) (a := a) (b := b) ?_ ?_
  · rw [fromOpVia_id] at h
    exact h
  · cases b <;> cases o <;> rfl
  · cases b <;> cases o <;> rfl

theorem toOption_forget (p : P) (r : Res (AFloat (T p))) :
    (r.map forget).toOption.toList = (r.toOption.toList.map (Sigma.mk (β := fun p => AFloat (T p)) p)).map
      fun x => Adv.forget x.2 := by
  cases r <;> rfl

theorem recordArgs_forget {S : Type} [Flt S] {up : S → F} {vals : List F} {o : OpCode} {v : S} {x y : Option Nat}
    (h : RecordArgs up vals o v x y) : RecordArgs id (vals.map fun _ => ()) o () x y := by
  cases h with
  | const v => exact .const ()
  | unary ha e =>
    refine .unary (a := ()) (by rw [List.getElem?_map, ha]; rfl) ?_
    cases o <;> first | (cases e; done) | rfl
  | binary ha hb e =>
    refine .binary (a := ()) (b := ()) (by rw [List.getElem?_map, ha]; rfl) (by rw [List.getElem?_map, hb]; rfl) ?_
    cases o <;> first | (cases e; done) | rfl

theorem MStep.forget {s t : MState T F} (h : MStep up conv okv s t) : HStep s.forget t.forget := by
  cases h with
  | @new h w' hid e =>
    have h1 := natl_new (fun _ : F => ()) s.world
    rw [e] at h1
    exact .new (s := s.forget) hid h1
  | @fromCid c o w' e =>
    have h1 := natl_fromCid (fun _ : F => ()) c s.world
    rw [e] at h1
    exact .fromCid (s := s.forget) h1
  | @drop c r w' hc e =>
    have h1 := natl_drop (fun _ : F => ()) ⟨c⟩ s.world
    rw [e] at h1
    exact .drop (s := s.forget) hc h1
  | scalar p v dv => exact .scalar (s := s.forget) () ()
  | @seed p a d ha => exact .seed (s := s.forget) (a := Adv.forget a) () (List.mem_map_of_mem ha)
  | @value p a v ha hok => exact .seed (s := s.forget) (a := Adv.forget a) () (List.mem_map_of_mem ha)
  | @cast p a q ha hok => exact .seed (s := s.forget) (a := Adv.forget a) () (List.mem_map_of_mem ha)
  | @setIndep c p a r w' hc ha e =>
    have h1 := natl_setIndep (up := up p) (up' := (id : Unit → Unit)) (φ := fun _ => ()) (χ := fun _ : F => ())
      (fun _ => rfl) ⟨c⟩ a s.world
    rw [e, setIndepVia_id] at h1
    have h2 := HStep.setIndep (s := s.forget) (a := Adv.forget a) hc (List.mem_map_of_mem ha) h1
    convert h2 using 1
    simp only [MState.forget, List.map_append]
    rw [← toOption_forget]
    rfl
  | @setDep c p a r w' hc ha e =>
    have h1 := natl_setDep (up := up p) (up' := (id : Unit → Unit)) (φ := fun _ => ()) (χ := fun _ : F => ())
      (fun _ => rfl) ⟨c⟩ a s.world
    rw [e, setDepVia_id] at h1
    exact HStep.setDep (s := s.forget) (a := Adv.forget a) hc (List.mem_map_of_mem ha) h1
  | @op p a b o r w' ha hb har e =>
    have h1 := natl_forget_fromOp (up p) o a b s.world
    rw [e] at h1
    have h2 := HStep.op (s := s.forget) (a := Adv.forget a) (b := b.map Adv.forget) (List.mem_map_of_mem ha)
      (by
        intro b' hb'
        obtain ⟨b'', k1, rfl⟩ := Option.map_eq_some_iff.mp hb'
        exact List.mem_map_of_mem (hb b'' k1)) (by cases b <;> exact har) h1
    convert h2 using 1
    simp only [MState.forget, List.map_append]
    rw [← toOption_forget]
  | @record c cell p o v x y r w' hc hcell ha e =>
    have h1 := natl_record (up := up p) (up' := (id : Unit → Unit)) (φ := fun _ => ()) (χ := fun _ : F => ())
      (fun _ => rfl) ⟨c⟩ o v x y s.world
    rw [e] at h1
    exact HStep.record (s := s.forget) (cell := ⟨cell.strong, cell.inner.map fun _ => ()⟩) (v := ()) hc
      (by show ((s.world.cells c).map _) = _; rw [hcell]; rfl) (recordArgs_forget ha) h1

theorem MSteps.forget {s t : MState T F} (h : MSteps up conv okv s t) : HSteps s.forget t.forget := by
  induction h with
  | refl => exact .refl _
  | tail _ hs ih => exact .tail ih hs.forget

theorem MSteps.inv {s : MState T F} (h : MSteps up conv okv MState.init s) : HInv s.forget :=
  HInv.init.steps h.forget

/-! ## Values -/

/-- Every operation was computed in one of the precisions. -/
def MixedOps (up : ∀ p, T p → F) (ops : List Operation) (vals : List F) : Prop :=
  ∀ op ∈ ops, op.opcode ≠ .Const → ∃ (p : P) (a : T p) (b : Option (T p)) (r : T p),
    zeroOrderValue op.opcode a b = .ok r ∧ op.arg1.bind (vals[·]?) = some (up p a) ∧
    op.arg2.bind (vals[·]?) = b.map (up p) ∧ vals[op.vid]? = some (up p r)

theorem getElem?_prefix {l m : List F} (h : l <+: m) {k : Nat} {v : F} (hk : l[k]? = some v) : m[k]? = some v := by
  obtain ⟨r, rfl⟩ := h
  rw [List.getElem?_append_left (List.getElem?_eq_some_iff.mp hk).1, hk]

theorem MixedOps.mono {ops : List Operation} {l m : List F} (h : MixedOps up ops l) (hp : l <+: m)
    (hargs : ∀ op ∈ ops, ∀ x, op.arg2 = some x → x < l.length) : MixedOps up ops m := by
  intro op hop hc
  obtain ⟨p, a, b, r, h1, h2, h3, h4⟩ := h op hop hc
  refine ⟨p, a, b, r, h1, ?_, ?_, getElem?_prefix hp h4⟩
  · obtain ⟨x, hx, hx'⟩ := Option.bind_eq_some_iff.mp h2
    rw [hx, Option.bind_some]
    exact getElem?_prefix hp hx'
  · rcases hx : op.arg2 with _ | x
    · rw [hx] at h3; rw [← h3]; rfl
    · rw [hx, Option.bind_some] at h3
      rw [Option.bind_some]
      have hlt := hargs op hop x hx
      rw [List.getElem?_eq_getElem hlt] at h3
      rw [← h3]
      exact getElem?_prefix hp (List.getElem?_eq_getElem hlt)

/-- The value that is recorded for a variable is its own. -/
structure VInv (up : ∀ p, T p → F) (s : MState T F) : Prop where
  vars : ∀ p (a : AFloat (T p)), ⟨p, a⟩ ∈ s.vars → ∀ c vid, a.ctx = some (c, vid) →
    ∀ cell, s.world.cells c = some cell → cell.inner.vals[vid]? = some (up p a.v)
  ops : ∀ c cell, s.world.cells c = some cell → MixedOps up cell.inner.ops cell.inner.vals

theorem VInv.init : VInv up (MState.init : MState T F) :=
  ⟨fun p a h => by simp [MState.init] at h, fun c cell h => by simp [MState.init] at h⟩

theorem VInv.setCell {s : MState T F} (h : VInv up s) {c n : Nat} {i j : Inner F}
    (hc : s.world.cells c = some ⟨n, i⟩) (hv : i.vals <+: j.vals) (ho : MixedOps up j.ops j.vals)
    {xs : List (Σ p, AFloat (T p))} (hxs : ∀ p (a : AFloat (T p)), ⟨p, a⟩ ∈ xs → ∀ c' vid, a.ctx = some (c', vid) →
      c' = c ∧ j.vals[vid]? = some (up p a.v)) (n' : Nat) (hs : List Nat) :
    VInv up ⟨s.world.setCell c (some ⟨n', j⟩), hs, xs ++ s.vars⟩ := by
  refine ⟨?_, ?_⟩
  · intro p a ha d vid hctx cell hcell
    rcases List.mem_append.mp ha with ha | ha
    · obtain ⟨rfl, h2⟩ := hxs p a ha d vid hctx
      simp only [World.setCell_same, Option.some.injEq] at hcell
      subst hcell
      exact h2
    · have h2 := h.vars p a ha d vid hctx
      by_cases hdc : d = c
      · subst hdc
        simp only [World.setCell_same, Option.some.injEq] at hcell
        subst hcell
        exact getElem?_prefix hv (h2 _ hc)
      · simp only [World.setCell_ne _ _ hdc] at hcell
        exact h2 cell hcell
  · intro d cell hd
    by_cases hdc : d = c
    · subst hdc
      simp only [World.setCell_same, Option.some.injEq] at hd
      subst hd
      exact ho
    · simp only [World.setCell_ne _ _ hdc] at hd
      exact h.ops d cell hd

theorem VInv.addVars {s : MState T F} (h : VInv up s) {xs : List (Σ p, AFloat (T p))}
    (hxs : ∀ x ∈ xs, x.2.ctx = none) (hs : List Nat) : VInv up ⟨s.world, hs, xs ++ s.vars⟩ := by
  refine ⟨?_, h.ops⟩
  intro p a ha d vid hctx cell hcell
  rcases List.mem_append.mp ha with ha | ha
  · rw [hxs _ ha] at hctx; cases hctx
  · exact h.vars p a ha d vid hctx cell hcell

section rec
variable {p : P}

theorem ensureW_ops {i : Inner F} (a : AFloat (T p)) (ho : MixedOps up i.ops i.vals)
    (hargs : ∀ op ∈ i.ops, ∀ x, op.arg2 = some x → x < i.vals.length)
    (ha : ∀ c vid, a.ctx = some (c, vid) → i.vals[vid]? = some (up p a.v)) :
    MixedOps up (ensureW (up p) i a).2.ops (ensureW (up p) i a).2.vals ∧ i.vals <+: (ensureW (up p) i a).2.vals ∧
    (ensureW (up p) i a).2.vals[(ensureW (up p) i a).1]? = some (up p a.v) ∧
    ∀ op ∈ (ensureW (up p) i a).2.ops, ∀ x, op.arg2 = some x → x < (ensureW (up p) i a).2.vals.length := by
  unfold ensureW
  rcases hctx : a.ctx with _ | ⟨c, vid⟩
  · simp only [Inner.record]
    refine ⟨?_, List.prefix_append _ _, by simp, ?_⟩
    · intro op hop hc
      rcases List.mem_append.mp hop with hop | hop
      · exact (ho.mono (List.prefix_append _ _) hargs) op hop hc
      · simp only [List.mem_singleton] at hop
        subst hop
        exact absurd rfl hc
    · intro op hop x hx
      rcases List.mem_append.mp hop with hop | hop
      · exact Nat.lt_of_lt_of_le (hargs op hop x hx) (by simp)
      · simp only [List.mem_singleton] at hop
        subst hop
        cases hx
  · exact ⟨ho, List.prefix_rfl, ha c vid hctx, hargs⟩

theorem recW_ops {i : Inner F} {o : OpCode} {a : AFloat (T p)} {b : Option (AFloat (T p))} (har : arityOk o b = true)
    (ho : MixedOps up i.ops i.vals) (hargs : ∀ op ∈ i.ops, ∀ x, op.arg2 = some x → x < i.vals.length)
    (ha : ∀ c vid, a.ctx = some (c, vid) → i.vals[vid]? = some (up p a.v))
    (hb : ∀ b', b = some b' → ∀ c vid, b'.ctx = some (c, vid) → i.vals[vid]? = some (up p b'.v)) :
    MixedOps up (recW (up p) i o (opVal o a b) a b).2.ops (recW (up p) i o (opVal o a b) a b).2.vals ∧
    i.vals <+: (recW (up p) i o (opVal o a b) a b).2.vals ∧
    (recW (up p) i o (opVal o a b) a b).2.vals[(recW (up p) i o (opVal o a b) a b).1]? = some (up p (opVal o a b)) := by
  have hz : zeroOrderValue o a.v (b.map AFloat.v) = .ok (opVal o a b) := by rw [zov_ok har, getD_v]; rfl
  obtain ⟨k1, k2, k3, k4⟩ := ensureW_ops a ho hargs ha
  cases b with
  | none =>
    simp only [recW, ensureOptW, Inner.record]
    refine ⟨?_, k2.trans (List.prefix_append _ _), by simp⟩
    intro op hop hc
    rcases List.mem_append.mp hop with hop | hop
    · exact (k1.mono (List.prefix_append _ _) k4) op hop hc
    · simp only [List.mem_singleton] at hop
      subst hop
      refine ⟨p, a.v, none, _, hz, ?_, rfl, by simp⟩
      rw [Option.bind_some]
      exact getElem?_prefix (List.prefix_append _ _) k3
  | some b =>
    obtain ⟨q1, q2, q3, q4⟩ := ensureW_ops b k1 k4 fun c vid h => getElem?_prefix k2 (hb b rfl c vid h)
    simp only [recW, ensureOptW, Inner.record]
    refine ⟨?_, (k2.trans q2).trans (List.prefix_append _ _), by simp⟩
    intro op hop hc
    rcases List.mem_append.mp hop with hop | hop
    · exact (q1.mono (List.prefix_append _ _) q4) op hop hc
    · simp only [List.mem_singleton] at hop
      subst hop
      refine ⟨p, a.v, some b.v, _, hz, ?_, ?_, by simp⟩
      · rw [Option.bind_some]
        exact getElem?_prefix (q2.trans (List.prefix_append _ _)) k3
      · rw [Option.bind_some]
        exact getElem?_prefix (List.prefix_append _ _) q3

end rec

theorem args_of_inv {s : MState T F} (hi : HInv s.forget) {c : Nat} {cell : Cell F} (hc : s.world.cells c = some cell) :
    cell.inner.cid = c ∧ 1 ≤ cell.strong ∧
      ∀ op ∈ cell.inner.ops, ∀ x, op.arg2 = some x → x < cell.inner.vals.length := by
  obtain ⟨g1, g2, g3, g4, g5⟩ := hi.alive c ⟨cell.strong, cell.inner.map fun _ => ()⟩ (by
    show (s.world.map fun _ => ()).cells c = _
    rw [World.map_cells, hc]; rfl)
  refine ⟨g1, g5, fun op hop x hx => ?_⟩
  have hmem : op ∈ activeOps cell.inner.ops := by
    have h := activeOps_eq (ops := cell.inner.ops) (fun op h => g2.noNop op h)
    rw [h]; exact hop
  have h1 := g2.wf.args_lt op hmem x (by simp [Operation.args, hx])
  have h2 := g2.wf.vid_lt op hmem
  simp only [Inner.tape, Inner.map, List.length_map] at h2
  exact Nat.lt_trans h1 h2

theorem VInv.step {s t : MState T F} (h : VInv up s) (hi : HInv s.forget)
    (hs : MStep up conv (fun p q v v' => up q v' = up p v) s t) : VInv up t := by
  cases hs with
  | @new hd w' hid e =>
    simp only [AContext.new, hid, if_true] at e
    injection e with e1 e2
    subst e2
    refine ⟨?_, ?_⟩
    · intro p a ha c vid hctx cell hcell
      have hlt : c < s.world.nextId := (hi.vars (forget a) (List.mem_map_of_mem (f := fun x => forget x.2) ha) c vid hctx).1
      rw [World.setCell_ne _ _ (by omega)] at hcell
      exact h.vars p a ha c vid hctx cell hcell
    · intro c cell hcell
      by_cases hc : c = s.world.nextId
      · subst hc
        simp only [World.setCell_same, Option.some.injEq] at hcell
        subst hcell
        intro op hop
        simp [Inner.construct] at hop
      · rw [World.setCell_ne _ _ hc] at hcell
        exact h.ops c cell hcell
  | @fromCid c o w' e =>
    simp only [AContext.fromCid] at e
    rcases hc : s.world.cells c with _ | ⟨n, i⟩
    · rw [hc] at e
      injection e with e1 e2
      subst e2
      exact ⟨h.vars, h.ops⟩
    · rw [hc] at e
      injection e with e1 e2
      subst e2
      exact h.setCell hc List.prefix_rfl (h.ops c _ hc) (xs := []) (by simp) _ _
  | @drop c r w' hmem e =>
    rcases hc : s.world.cells c with _ | ⟨n, i⟩
    · simp only [AContext.drop, hc] at e
      injection e with e1 e2
      subst e2
      exact ⟨h.vars, h.ops⟩
    simp only [AContext.drop, hc] at e
    split at e
    · injection e with e1 e2
      subst e2
      refine ⟨?_, ?_⟩
      · intro p a ha d vid hctx cell hcell
        by_cases hdc : d = c
        · subst hdc; simp at hcell
        · simp only [World.setCell_ne _ _ hdc] at hcell
          exact h.vars p a ha d vid hctx cell hcell
      · intro d cell hcell
        by_cases hdc : d = c
        · subst hdc; simp at hcell
        · simp only [World.setCell_ne _ _ hdc] at hcell
          exact h.ops d cell hcell
    · injection e with e1 e2
      subst e2
      exact h.setCell hc List.prefix_rfl (h.ops c _ hc) (xs := []) (by simp) _ _
  | scalar p v dv => exact h.addVars (xs := [⟨p, AFloat.new v dv⟩]) (by simp [AFloat.new]) _
  | @seed p a d ha =>
    refine ⟨fun q b hb c vid hctx => ?_, h.ops⟩
    rcases List.mem_cons.mp hb with hb | hb
    · cases hb; exact h.vars p a ha c vid hctx
    · exact h.vars q b hb c vid hctx
  | @value p a v ha hok =>
    refine ⟨fun q b hb c vid hctx => ?_, h.ops⟩
    rcases List.mem_cons.mp hb with hb | hb
    · cases hb
      rw [hok]
      exact h.vars p a ha c vid hctx
    · exact h.vars q b hb c vid hctx
  | @cast p a q' ha hok =>
    refine ⟨fun q b hb c vid hctx => ?_, h.ops⟩
    rcases List.mem_cons.mp hb with hb | hb
    · cases hb
      simp only [AFloat.cast]
      rw [hok]
      exact h.vars p a ha c vid hctx
    · exact h.vars q b hb c vid hctx
  | @setIndep c p a r w' hmem ha e =>
    rcases hc : s.world.cells c with _ | ⟨n, i⟩
    · simp only [AContext.setIndepVia, AContext.withLock, hc] at e
      injection e with e1 e2
      subst e1 e2
      exact h.addVars (xs := []) (by simp) _
    obtain ⟨g1, g2, g3⟩ := args_of_inv hi hc
    by_cases hp : i.poisoned = true
    · rw [AContext.setIndepVia, withLockF_poisoned hc hp] at e
      injection e with e1 e2
      subst e1 e2
      exact h.addVars (xs := []) (by simp) _
    · have e' : AContext.setIndepVia (up p) ⟨c⟩ a s.world = (.ok { a with ctx := some (i.cid, i.vals.length) },
          s.world.setCell c (some ⟨n, (i.setIndep (up p a.v)).2⟩)) := withLockF_ok hc (by simpa using hp) rfl
      rw [e'] at e
      injection e with e1 e2
      subst e1 e2
      refine h.setCell (j := (i.setIndep (up p a.v)).2) hc (List.prefix_append _ _)
        ((h.ops c _ hc).mono (List.prefix_append _ _) g3) ?_ _ _
      intro q b hb c' vid hctx
      simp only [Except.toOption, Option.toList_some, List.map_cons, List.map_nil, List.mem_singleton] at hb
      cases hb
      simp only [Option.some.injEq, Prod.mk.injEq] at hctx
      obtain ⟨rfl, rfl⟩ := hctx
      exact ⟨g1, by simp [Inner.setIndep]⟩
  | @setDep c p a r w' hmem ha e =>
    rcases hc : s.world.cells c with _ | ⟨n, i⟩
    · simp only [AContext.setDepVia, AContext.withLock, hc] at e
      injection e with e1 e2
      subst e2
      exact ⟨h.vars, h.ops⟩
    obtain ⟨g1, g2, g3⟩ := args_of_inv hi hc
    have ho := h.ops c _ hc
    by_cases hp : i.poisoned = true
    · rw [AContext.setDepVia, withLockF_poisoned hc hp] at e
      injection e with e1 e2
      subst e2
      exact ⟨h.vars, h.ops⟩
    · rcases hd : i.setDep (up p a.v) a.ctx with e' | j
      · simp only [AContext.setDepVia, AContext.withLock, hc, hp, hd] at e
        injection e with e1 e2
        subst e2
        exact h.setCell (j := { i with poisoned := true }) hc List.prefix_rfl ho (xs := []) (by simp) _ _
      · rw [AContext.setDepVia, withLockF_ok (i' := j) (x := ()) hc (by simpa using hp) (by simp only [hd])] at e
        injection e with e1 e2
        subst e2
        have hj : i.vals <+: j.vals ∧ MixedOps up j.ops j.vals := by
          rcases hctx : a.ctx with _ | ⟨c', vid⟩
          · rw [hctx] at hd
            simp only [Inner.setDep] at hd
            injection hd with hd
            subst hd
            refine ⟨List.prefix_append _ _, fun op hop hne => ?_⟩
            rcases List.mem_append.mp hop with hop | hop
            · exact (ho.mono (List.prefix_append _ _) g3) op hop hne
            · simp only [List.mem_singleton] at hop
              subst hop
              exact absurd rfl hne
          · rw [hctx] at hd
            simp only [Inner.setDep] at hd
            split at hd
            · injection hd with hd
              subst hd
              exact ⟨List.prefix_rfl, ho⟩
            · cases hd
        exact h.setCell hc hj.1 hj.2 (xs := []) (by simp) _ _
  | @op p a b o r w' ha hb har e =>
    have hadd : ∀ r' : Res (AFloat (T p)), (∀ x, r' = .ok x → x.ctx = none) →
        (.ok (), s.world) = ((.ok (), w') : Res Unit × World F) → r' = r →
        VInv up ⟨w', s.handles, r.toOption.toList.map (Sigma.mk p) ++ s.vars⟩ := by
      intro r' h1 h2 h3
      injection h2 with _ h2
      subst h2 h3
      refine h.addVars ?_ _
      intro x hx
      cases r' with
      | error _ => simp [Except.toOption] at hx
      | ok y =>
        simp only [Except.toOption, Option.toList_some, List.map_cons, List.map_nil, List.mem_singleton] at hx
        subst hx
        exact h1 y rfl
    rcases opCase a b with ⟨h1, h2⟩ | ⟨c, h1, h2, h3⟩ | ⟨b', c1, v1, c2, v2, rfl, h1, h2, h3⟩
    · rw [fromOpVia_free s.world har h1 h2] at e
      injection e with e1 e2
      exact hadd _ (by rintro x ⟨⟩; rfl) (by rw [e2]) e1
    · rcases hc : s.world.cells c with _ | ⟨n, i⟩
      · rw [fromOpVia_dead har h1 h2 h3 hc] at e
        injection e with e1 e2
        exact hadd _ (by rintro x ⟨⟩; rfl) (by rw [e2]) e1
      · obtain ⟨g1, g2, g3⟩ := args_of_inv hi hc
        by_cases hp : i.poisoned = true
        · rw [fromOpVia_poisoned har h1 h2 h3 hc g2 hp] at e
          injection e with e1 e2
          exact hadd _ (by rintro x ⟨⟩) (by rw [e2]) e1
        · rw [fromOpVia_live har h1 h2 h3 hc g2 (by simpa using hp)] at e
          injection e with e1 e2
          subst e1 e2
          have hv : ∀ x : AFloat (T p), ⟨p, x⟩ ∈ s.vars → InCtx c x → ∀ c' vid, x.ctx = some (c', vid) →
              i.vals[vid]? = some (up p x.v) := by
            intro x hx hin c' vid hctx
            have := hin c' vid hctx
            subst this
            exact h.vars p x hx _ vid hctx _ hc
          obtain ⟨q1, q2, q3⟩ := recW_ops (up := up) har (h.ops c _ hc) g3 (hv a ha h1)
            fun b' hb' => hv b' (hb b' hb') (h2 b' hb')
          refine h.setCell hc q2 q1 ?_ _ _
          intro q x hx c' vid hctx
          simp only [Except.toOption, Option.toList_some, List.map_cons, List.map_nil, List.mem_singleton] at hx
          cases hx
          simp only [Option.some.injEq, Prod.mk.injEq] at hctx
          obtain ⟨rfl, rfl⟩ := hctx
          exact ⟨rfl, q3⟩
    · rw [fromOpVia_mixed s.world h1 h2 h3 (arityOk_some har)] at e
      injection e with e1 e2
      exact hadd _ (by rintro x ⟨⟩) (by rw [e2]) e1
  | @record c cell p o v x y r w' hc hcell ha e =>
    obtain ⟨n, i⟩ := cell
    obtain ⟨g1, g2, g3⟩ := args_of_inv hi hcell
    by_cases hp : i.poisoned = true
    · rw [AContext.recordVia, withLockF_poisoned hcell hp] at e
      injection e with e1 e2
      subst e2
      exact ⟨h.vars, h.ops⟩
    · have e' : AContext.recordVia (up p) ⟨c⟩ o v x y s.world =
          (.ok i.vals.length, s.world.setCell c (some ⟨n, (i.record o (up p v) x y).2⟩)) :=
        withLockF_ok (f := fun i : Inner F => (.ok (i.record o (up p v) x y).1, (i.record o (up p v) x y).2))
          hcell (by simpa using hp) rfl
      rw [e] at e'
      injection e' with e1 e2
      subst e2
      have hpre : i.vals <+: (i.record o (up p v) x y).2.vals := List.prefix_append _ _
      refine h.setCell hcell hpre ?_ (xs := []) (by simp) _ _
      intro op hop hne
      rcases List.mem_append.mp hop with hop | hop
      · exact ((h.ops c _ hcell).mono hpre g3) op hop hne
      · simp only [List.mem_singleton] at hop
        subst hop
        have hlast : (i.vals ++ [up p v])[i.vals.length]? = some (up p v) := by simp
        cases ha with
        | const v => exact absurd rfl hne
        | @unary _ _ a x ha em =>
          refine ⟨p, a, none, v, ?_, getElem?_prefix hpre ha, rfl, hlast⟩
          cases o <;> first | (cases em; done) | (injection em with em; subst em; rfl)
        | @binary _ _ a b x y ha hb em =>
          refine ⟨p, a, some b, v, ?_, getElem?_prefix hpre ha, getElem?_prefix hpre hb, hlast⟩
          cases o <;> first | (cases em; done) | (injection em with em; subst em; rfl)

theorem MState.ReachableExact.vinv {s : MState T F} (h : s.ReachableExact up conv) : VInv up s := by
  unfold MState.ReachableExact at h
  generalize hs0 : (MState.init : MState T F) = s0 at h
  induction h with
  | refl => subst hs0; exact VInv.init
  | tail h hs ih =>
    subst hs0
    exact ih.step h.inv hs

end Adv
