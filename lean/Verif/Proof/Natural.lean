import Verif.Spec.Precision
import Verif.Proof.History

/-!
# The registry does not look at values

All operations on contexts commute with conversions of the recorded values, and `from_op` does if the conversion of the
scalars is compatible with the operation.
-/

set_option linter.unusedSectionVars false

namespace Adv
open scoped Adv

variable {S T F G α β γ δ : Type}

/-- `m'` does the same as `m`, on converted values. -/
def Natl (χ : F → G) (g : α → β) (m : M (World F) α) (m' : M (World G) β) : Prop :=
  ∀ w, m' (w.map χ) = ((m w).1.map g, (m w).2.map χ)

theorem Natl.pure {χ : F → G} {g : α → β} (a : α) : Natl χ g (pure a) (pure (g a)) := fun _ => rfl

theorem Natl.throw {χ : F → G} {g : α → β} (e : Err) : Natl χ g (M.throw e) (M.throw e) := fun _ => rfl

theorem Natl.lift {χ : F → G} {g : α → β} {r : Res α} {r' : Res β} (h : r' = r.map g) :
    Natl χ g (M.lift r) (M.lift r') := by
  intro w; subst h; rfl

theorem Natl.bind {χ : F → G} {g : α → β} {g' : γ → δ} {m : M (World F) α} {m' : M (World G) β}
    {k : α → M (World F) γ} {k' : β → M (World G) δ} (h : Natl χ g m m') (hk : ∀ a, Natl χ g' (k a) (k' (g a))) :
    Natl χ g' (m >>= k) (m' >>= k') := by
  intro w
  rw [M.bind_apply, M.bind_apply, h w]
  rcases m w with ⟨e | a, w'⟩
  · rfl
  · exact hk a w'

theorem World.map_setCell (χ : F → G) (w : World F) (c : Nat) (x : Option (Cell F)) :
    (w.setCell c x).map χ = (w.map χ).setCell c (x.map fun cell => ⟨cell.strong, cell.inner.map χ⟩) := by
  simp only [World.map, World.setCell, World.mk.injEq, true_and]
  funext d
  split <;> rfl

theorem World.map_cells (χ : F → G) (w : World F) (c : Nat) :
    (w.map χ).cells c = (w.cells c).map fun cell => ⟨cell.strong, cell.inner.map χ⟩ := rfl

theorem natl_new (χ : F → G) : Natl χ id AContext.new AContext.new := by
  intro w
  simp only [AContext.new]
  by_cases h : w.nextId < usizeMax
  · simp only [World.map, h, if_true, Except.map, id, Prod.mk.injEq, true_and]
    simp only [World.setCell, World.mk.injEq, true_and]
    funext d
    by_cases hd : d = w.nextId <;> simp [hd, Inner.construct, Inner.map]
  · simp only [World.map, h, if_false]
    rfl

theorem natl_fromCid (χ : F → G) (c : Nat) : Natl χ id (AContext.fromCid c) (AContext.fromCid c) := by
  intro w
  unfold AContext.fromCid
  rw [World.map_cells]
  rcases w.cells c with _ | ⟨n, i⟩
  · rfl
  · simp only [Option.map_some, World.map_setCell]
    rfl

theorem natl_drop (χ : F → G) (h : AContext) : Natl χ id h.drop h.drop := by
  intro w
  unfold AContext.drop
  rw [World.map_cells]
  rcases w.cells h.cid with _ | ⟨n, i⟩
  · rfl
  · by_cases hn : n ≤ 1
    · simp only [Option.map_some, hn, if_true, World.map_setCell]; rfl
    · simp only [Option.map_some, hn, if_false, World.map_setCell]; rfl

theorem natl_inScope {χ : F → G} {g : α → β} (h : AContext) {m : M (World F) α} {m' : M (World G) β}
    (hm : Natl χ g m m') : Natl χ g (h.inScope m) (h.inScope m') := by
  intro w
  unfold AContext.inScope
  rw [hm w]
  rcases m w with ⟨r, w'⟩
  simp only [natl_drop χ h w']

theorem natl_withLock {χ : F → G} {g : α → β} (h : AContext) {f : Inner F → Res α × Inner F}
    {f' : Inner G → Res β × Inner G} (hf : ∀ i, f' (i.map χ) = ((f i).1.map g, (f i).2.map χ)) :
    Natl χ g (h.withLock f) (h.withLock f') := by
  intro w
  unfold AContext.withLock
  rw [World.map_cells]
  rcases w.cells h.cid with _ | ⟨n, i⟩
  · rfl
  · simp only [Option.map_some, hf i]
    by_cases hp : i.poisoned = true
    · simp only [Inner.map, hp, if_true]; rfl
    · rcases f i with ⟨e | a, j⟩ <;> simp [Inner.map, hp, Except.map, World.map_setCell]

theorem natl_tape (χ : F → G) (h : AContext) : Natl χ (Tape.map χ) h.tape h.tape := by
  unfold AContext.tape
  refine Natl.bind (g := id) (natl_withLock h fun i => rfl) fun a => ?_
  refine Natl.bind (g := id) (natl_withLock h fun i => rfl) fun b => ?_
  refine Natl.bind (g := id) (natl_withLock h fun i => rfl) fun c => ?_
  refine Natl.bind (g := List.map χ) (natl_withLock h fun i => rfl) fun d => ?_
  exact Natl.pure _

section via
variable [Flt S] [Flt T] {up : S → F} {up' : T → G} {φ : S → T} {χ : F → G}

theorem natl_record (h : ∀ s, χ (up s) = up' (φ s)) (c : AContext) (o : OpCode) (v : S) (a b : Option Nat) :
    Natl χ id (c.recordVia up o v a b) (c.recordVia up' o (φ v) a b) := by
  refine natl_withLock c fun i => ?_
  simp [Inner.record, Inner.map, h, Except.map]

theorem natl_setIndep (h : ∀ s, χ (up s) = up' (φ s)) (c : AContext) (a : AFloat S) :
    Natl χ (AFloat.cast φ) (c.setIndepVia up a) (c.setIndepVia up' (AFloat.cast φ a)) := by
  refine natl_withLock c fun i => ?_
  simp [Inner.setIndep, Inner.map, h, Except.map, AFloat.cast]

theorem natl_setDep (h : ∀ s, χ (up s) = up' (φ s)) (c : AContext) (a : AFloat S) :
    Natl χ id (c.setDepVia up a) (c.setDepVia up' (AFloat.cast φ a)) := by
  refine natl_withLock c fun i => ?_
  rcases hctx : a.ctx with _ | ⟨d, vid⟩
  · simp [Inner.setDep, Inner.map, h, Except.map, AFloat.cast, hctx]
  · by_cases hd : d = i.cid <;> simp [Inner.setDep, Inner.map, Except.map, AFloat.cast, hctx, hd]

theorem natl_setIndepAll (h : ∀ s, χ (up s) = up' (φ s)) (c : AContext) : ∀ xs : List (AFloat S),
    Natl χ (List.map (AFloat.cast φ)) (c.setIndepAllVia up xs) (c.setIndepAllVia up' (xs.map (AFloat.cast φ)))
  | [] => Natl.pure _
  | x :: xs => by
    refine Natl.bind (natl_setIndep h c x) fun a => ?_
    exact Natl.bind (natl_setIndepAll h c xs) fun b => Natl.pure _

theorem natl_setDepSlice (h : ∀ s, χ (up s) = up' (φ s)) (c : AContext) : ∀ xs : List (AFloat S),
    Natl χ id (c.setDepSliceVia up xs) (c.setDepSliceVia up' (xs.map (AFloat.cast φ)))
  | [] => Natl.pure _
  | x :: xs => Natl.bind (natl_setDep h c x) fun _ => natl_setDepSlice h c xs

theorem natl_ensureVid (h : ∀ s, χ (up s) = up' (φ s)) (c : AContext) (a : AFloat S) :
    Natl χ id (AFloat.ensureVidVia up c a) (AFloat.ensureVidVia up' c (AFloat.cast φ a)) := by
  rcases hctx : a.ctx with _ | ⟨d, vid⟩
  · simp only [AFloat.ensureVidVia, AFloat.cast, hctx]
    exact natl_record h c _ _ _ _
  · simp only [AFloat.ensureVidVia, AFloat.cast, hctx]
    exact Natl.pure _

theorem natl_ensureVidOpt (h : ∀ s, χ (up s) = up' (φ s)) (c : AContext) (b : Option (AFloat S)) :
    Natl χ id (AFloat.ensureVidOptVia up c b) (AFloat.ensureVidOptVia up' c (b.map (AFloat.cast φ))) := by
  cases b with
  | none => exact Natl.pure _
  | some b => exact Natl.bind (natl_ensureVid h c b) fun _ => Natl.pure _

theorem natl_fromOp (h : ∀ s, χ (up s) = up' (φ s)) {o : OpCode} {a : AFloat S} {b : Option (AFloat S)}
    (hz : zeroOrderValue o (φ a.v) ((b.map AFloat.v).map φ) = (zeroOrderValue o a.v (b.map AFloat.v)).map φ)
    (hf : firstOrderValue o (φ a.v) ((b.map AFloat.v).map φ) (φ a.dv) ((b.map AFloat.dv).map φ) =
      (firstOrderValue o a.v (b.map AFloat.v) a.dv (b.map AFloat.dv)).map φ) :
    Natl χ (AFloat.cast φ) (AFloat.fromOpVia up o a b)
      (AFloat.fromOpVia up' o (AFloat.cast φ a) (b.map (AFloat.cast φ))) := by
  have e1 : (b.map (AFloat.cast φ)).map AFloat.v = (b.map AFloat.v).map φ := by cases b <;> rfl
  have e2 : (b.map (AFloat.cast φ)).map AFloat.dv = (b.map AFloat.dv).map φ := by cases b <;> rfl
  have e3 : AFloat.opCid (AFloat.cast φ a) (b.map (AFloat.cast φ)) = AFloat.opCid a b := by cases b <;> rfl
  unfold AFloat.fromOpVia
  rw [e1, e2, e3]
  refine Natl.bind (g := φ) (Natl.lift hz) fun v => ?_
  refine Natl.bind (g := φ) (Natl.lift hf) fun dv => ?_
  refine Natl.bind (g := id) (Natl.lift (by cases AFloat.opCid a b <;> rfl)) fun cid => ?_
  cases cid with
  | none => exact Natl.pure _
  | some cid =>
    refine Natl.bind (natl_fromCid χ cid) fun ctx => ?_
    cases ctx with
    | none => exact Natl.pure _
    | some ctx =>
      refine natl_inScope ctx ?_
      refine Natl.bind (natl_ensureVid h ctx a) fun i => ?_
      refine Natl.bind (natl_ensureVidOpt h ctx b) fun j => ?_
      exact Natl.bind (natl_record h ctx _ _ _ _) fun k => Natl.pure _

end via

/-! ## The model without conversion -/

section same
variable [Flt S]

theorem recordVia_id (c : AContext) (o : OpCode) (v : S) (a b : Option Nat) :
    c.recordVia id o v a b = c.record o v a b := rfl

theorem setIndepVia_id (c : AContext) (a : AFloat S) : c.setIndepVia id a = c.setIndep a := rfl

theorem setDepVia_id (c : AContext) (a : AFloat S) : c.setDepVia id a = c.setDep a := rfl

theorem setIndepAllVia_id (c : AContext) : ∀ xs : List (AFloat S), c.setIndepAllVia id xs = c.setIndepAll xs
  | [] => rfl
  | x :: xs => by simp only [AContext.setIndepAllVia, AContext.setIndepAll, setIndepAllVia_id c xs]; rfl

theorem setDepSliceVia_id (c : AContext) : ∀ xs : List (AFloat S), c.setDepSliceVia id xs = c.setDepSlice xs
  | [] => rfl
  | x :: xs => by simp only [AContext.setDepSliceVia, AContext.setDepSlice, setDepSliceVia_id c xs]; rfl

theorem ensureVidVia_id (c : AContext) (a : AFloat S) : AFloat.ensureVidVia id c a = AFloat.ensureVid c a := by
  unfold AFloat.ensureVidVia AFloat.ensureVid
  rcases a.ctx with _ | ⟨d, vid⟩ <;> rfl

theorem ensureVidOptVia_id (c : AContext) (b : Option (AFloat S)) :
    AFloat.ensureVidOptVia id c b = AFloat.ensureVidOpt c b := by
  cases b with
  | none => rfl
  | some b => simp only [AFloat.ensureVidOptVia, AFloat.ensureVidOpt, ensureVidVia_id]

theorem fromOpVia_id (o : OpCode) (a : AFloat S) (b : Option (AFloat S)) :
    AFloat.fromOpVia id o a b = AFloat.fromOp o a b := by
  unfold AFloat.fromOpVia AFloat.fromOp
  simp only [ensureVidVia_id, ensureVidOptVia_id, recordVia_id]
  rfl

theorem runVia_id : ∀ (p : Prog S) (env : List (AFloat S)), p.runVia id env = p.run env
  | .ret _, _ => rfl
  | .panic, _ => rfl
  | .op o a b k, env => by
    simp only [Prog.runVia, Prog.run, fromOpVia_id]
    simp only [fun i v env => runVia_id (k i v) env]

mutual
theorem evalVia_id : ∀ (f : Func S) (x : List (AFloat S)), f.evalVia id x = f.eval x
  | .simple _ _ f, x => by simp only [Func.evalVia, Func.eval, runVia_id]
  | .chain fs, x => by simp only [Func.evalVia, Func.eval, evalAllVia_id fs]
theorem evalAllVia_id : ∀ (fs : List (Func S)) (x : List (AFloat S)), Func.evalAllVia id fs x = Func.evalAll fs x
  | [], _ => rfl
  | f :: fs, x => by simp only [Func.evalAllVia, Func.evalAll, evalVia_id f, evalAllVia_id fs]
end

theorem tapeVia_id (f : Func S) (x : List S) : f.tapeVia id x = f.tape x := by
  unfold Func.tapeVia Func.tape
  simp only [setIndepAllVia_id, evalVia_id, setDepSliceVia_id]

end same

/-! ## Recording in another scalar type -/

section conv
variable [Flt S] (up : S → F)

theorem cast_id (a : AFloat S) : AFloat.cast id a = a := rfl

theorem map_cast_id (xs : List (AFloat S)) : xs.map (AFloat.cast id) = xs := by
  rw [show (AFloat.cast id : AFloat S → AFloat S) = id from rfl, List.map_id]

theorem natl_fromOp_up (o : OpCode) (a : AFloat S) (b : Option (AFloat S)) :
    Natl up id (AFloat.fromOp o a b) (AFloat.fromOpVia up o a b) := by
  have h := natl_fromOp (up := id) (up' := up) (φ := id) (χ := up) (fun s => rfl) (o := o) (a := a) (b := b)
    (by cases hz : zeroOrderValue o a.v (b.map AFloat.v) <;> simp [hz, Except.map])
    (by cases hz : firstOrderValue o a.v (b.map AFloat.v) a.dv (b.map AFloat.dv) <;> simp [hz, Except.map])
  rw [fromOpVia_id] at h
  rwa [show b.map (AFloat.cast id) = b by cases b <;> rfl] at h

theorem natl_run : ∀ (p : Prog S) (env : List (AFloat S)), Natl up id (p.run env) (p.runVia up env)
  | .ret outs, env => Natl.lift (by cases outs.mapM (Arg.get env) <;> rfl)
  | .panic, _ => Natl.throw _
  | .op o a b k, env => by
    simp only [Prog.runVia, Prog.run]
    refine Natl.bind (g := id) (Natl.lift (by cases a.get env <;> rfl)) fun a => ?_
    refine Natl.bind (g := id) (Natl.lift (by cases Arg.getOpt env b <;> rfl)) fun b => ?_
    simp only [id]
    split
    · exact Natl.bind (natl_fromOp_up up o a b) fun r => natl_run (k env.length r.v) (env ++ [r])
    · exact Natl.throw _

mutual
theorem natl_eval : ∀ (f : Func S) (x : List (AFloat S)), Natl up id (f.eval x) (f.evalVia up x)
  | .simple _ _ f, x => by simp only [Func.evalVia, Func.eval]; exact natl_run up _ _
  | .chain fs, x => by simp only [Func.evalVia, Func.eval]; exact natl_evalAll fs x
theorem natl_evalAll : ∀ (fs : List (Func S)) (x : List (AFloat S)), Natl up id (Func.evalAll fs x) (Func.evalAllVia up fs x)
  | [], x => by simp only [Func.evalAllVia, Func.evalAll]; exact Natl.pure _
  | f :: fs, x => by
    simp only [Func.evalAllVia, Func.evalAll]
    exact Natl.bind (natl_eval f x) fun y => natl_evalAll fs y
end

theorem natl_tapeVia (f : Func S) (x : List S) : Natl up (Tape.map up) (f.tape x) (f.tapeVia up x) := by
  unfold Func.tapeVia
  rw [← tapeVia_id]
  unfold Func.tapeVia
  refine Natl.bind (natl_new up) fun ctx => ?_
  refine natl_inScope _ ?_
  have h1 := natl_setIndepAll (up := id) (up' := up) (φ := id) (χ := up) (fun s => rfl) ctx (x.map AFloat.ofScalar)
  rw [map_cast_id] at h1
  refine Natl.bind h1 fun input => ?_
  rw [map_cast_id, evalVia_id]
  refine Natl.bind (natl_eval up f input) fun output => ?_
  have h2 := natl_setDepSlice (up := id) (up' := up) (φ := id) (χ := up) (fun s => rfl) ctx output
  rw [map_cast_id] at h2
  exact Natl.bind h2 fun _ => natl_tape up ctx

end conv
end Adv
