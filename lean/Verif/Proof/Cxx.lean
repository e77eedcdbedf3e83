import Verif.Model.Cxx
import Verif.Proof.History

/-!
# Invariants of the C++ bindings
-/

set_option linter.unusedSectionVars false

namespace Adv

variable {S : Type} [Flt S]

/-- Ownership: every object owns its `Impl`, which owns a Rust box; nothing is shared, nothing else is allocated. -/
structure OwnInv (s : CxxState S) : Prop where
  fresh : ∀ p, s.next ≤ p → s.heap p = .none
  dbl : ∀ x i, s.doubles x = some i → ∃ q a, s.heap i = .live (.dImpl q) ∧ s.heap q = .live (.adouble a)
  dinj : ∀ x y i, s.doubles x = some i → s.doubles y = some i → x = y
  dval : ∀ i j q, s.heap i = .live (.dImpl q) → s.heap j = .live (.dImpl q) → i = j
  dimpl : ∀ i q, s.heap i = .live (.dImpl q) → ∃ x, s.doubles x = some i
  dbox : ∀ q a, s.heap q = .live (.adouble a) → ∃ i, s.heap i = .live (.dImpl q)
  ctx : ∀ k i, s.ctxs k = some (some i) → ∃ q c, s.heap i = .live (.cImpl q) ∧ s.heap q = .live (.actx c)
  cinj : ∀ k l i, s.ctxs k = some (some i) → s.ctxs l = some (some i) → k = l
  cval : ∀ i j q, s.heap i = .live (.cImpl q) → s.heap j = .live (.cImpl q) → i = j
  cimpl : ∀ i q, s.heap i = .live (.cImpl q) → ∃ k, s.ctxs k = some (some i)
  cbox : ∀ q c, s.heap q = .live (.actx c) → ∃ i, s.heap i = .live (.cImpl q)

namespace CxxState

/-- State after constructing an `ADouble` with contents `a` at `z`. -/
def mk' (s : CxxState S) (z : Nat) (a : AFloat S) : CxxState S :=
  { s with
    heap := fun p => if p = s.next + 1 then .live (.dImpl s.next) else if p = s.next then .live (.adouble a) else s.heap p
    next := s.next + 2
    doubles := fun y => if y = z then some (s.next + 1) else s.doubles y }

/-- State after destroying the `ADouble` at `x` with pointers `i`, `q`. -/
def kill (s : CxxState S) (x i q : Nat) : CxxState S :=
  { s with
    heap := fun p => if p = i then .freed else if p = q then .freed else s.heap p
    doubles := fun y => if y = x then none else s.doubles y }

/-- State after replacing the contents (box `q`) of the object with implementation `i` by a new box. -/
def replace (s : CxxState S) (i q : Nat) (a : AFloat S) : CxxState S :=
  { s with
    heap := fun p => if p = i then .live (.dImpl s.next) else if p = s.next then .live (.adouble a) else
      if p = q then .freed else s.heap p
    next := s.next + 1 }

/-- State after moving the contents of `j` (box `r`) to `i`, whose box `q` is freed. -/
def moved (s : CxxState S) (i j q r : Nat) : CxxState S :=
  { s with
    heap := fun p => if p = j then .live (.dImpl s.next) else if p = s.next then .live (.adouble AFloat.zero) else
      if p = i then .live (.dImpl r) else if p = q then .freed else s.heap p
    next := s.next + 1 }

/-- State after move construction at `z` from the object with implementation `j` and box `r`. -/
def mkMove (s : CxxState S) (z j r : Nat) : CxxState S :=
  { s with
    heap := fun p => if p = j then .live (.dImpl (s.next + 1)) else if p = s.next + 1 then .live (.adouble AFloat.zero) else
      if p = s.next then .live (.dImpl r) else s.heap p
    next := s.next + 2
    doubles := fun y => if y = z then some s.next else s.doubles y }

end CxxState

theorem OwnInv.init : OwnInv (CxxState.init : CxxState S) := by
  constructor <;> simp [CxxState.init]

theorem OwnInv.world {s : CxxState S} (h : OwnInv s) (w : World S) : OwnInv { s with world := w } :=
  ⟨h.fresh, h.dbl, h.dinj, h.dval, h.dimpl, h.dbox, h.ctx, h.cinj, h.cval, h.cimpl, h.cbox⟩

theorem OwnInv.mk' {s : CxxState S} (h : OwnInv s) {z : Nat} (hz : s.doubles z = none) (a : AFloat S) :
    OwnInv (s.mk' z a) := by
  obtain ⟨h0, h1, h2, h3, h4, h5, h6, h7, h8, h9, h10⟩ := h
  have f0 := h0 s.next (Nat.le_refl _)
  have f1 := h0 (s.next + 1) (by omega)
  constructor <;> simp only [CxxState.mk']
  case dbl =>
    intro x i hx
    by_cases hxz : x = z
    · refine ⟨s.next, a, ?_, ?_⟩ <;> grind
    · rw [if_neg hxz] at hx
      obtain ⟨q, b, e1, e2⟩ := h1 x i hx
      refine ⟨q, b, ?_, ?_⟩ <;> grind
  all_goals grind

theorem OwnInv.kill {s : CxxState S} (h : OwnInv s) {x i q : Nat} {a : AFloat S} (hx : s.doubles x = some i)
    (hi : s.heap i = .live (.dImpl q)) (hq : s.heap q = .live (.adouble a)) : OwnInv (s.kill x i q) := by
  obtain ⟨h0, h1, h2, h3, h4, h5, h6, h7, h8, h9, h10⟩ := h
  constructor <;> simp only [CxxState.kill] <;> grind

theorem OwnInv.replace {s : CxxState S} (h : OwnInv s) {x i q : Nat} {a : AFloat S} (hx : s.doubles x = some i)
    (hi : s.heap i = .live (.dImpl q)) (hq : s.heap q = .live (.adouble a)) (b : AFloat S) : OwnInv (s.replace i q b) := by
  obtain ⟨h0, h1, h2, h3, h4, h5, h6, h7, h8, h9, h10⟩ := h
  have f0 := h0 s.next (Nat.le_refl _)
  constructor <;> simp only [CxxState.replace] <;> grind

theorem OwnInv.moved {s : CxxState S} (h : OwnInv s) {x y i j q r : Nat} {a b : AFloat S} (hxy : x ≠ y)
    (hx : s.doubles x = some i) (hy : s.doubles y = some j)
    (hi : s.heap i = .live (.dImpl q)) (hq : s.heap q = .live (.adouble a))
    (hj : s.heap j = .live (.dImpl r)) (hr : s.heap r = .live (.adouble b)) : OwnInv (s.moved i j q r) := by
  obtain ⟨h0, h1, h2, h3, h4, h5, h6, h7, h8, h9, h10⟩ := h
  have f0 := h0 s.next (Nat.le_refl _)
  have hij : i ≠ j := by grind
  have hqr : q ≠ r := by grind
  constructor <;> simp only [CxxState.moved]
  case dbl =>
    intro x' i' hx'
    by_cases hj' : i' = j
    · refine ⟨s.next, AFloat.zero, ?_, ?_⟩ <;> grind
    by_cases hi' : i' = i
    · refine ⟨r, b, ?_, ?_⟩ <;> grind
    obtain ⟨q', b', e1, e2⟩ := h1 x' i' hx'
    refine ⟨q', b', ?_, ?_⟩ <;> grind
  case dbox =>
    intro q' a' hq'
    by_cases hn : q' = s.next
    · refine ⟨j, ?_⟩; grind
    by_cases hr' : q' = r
    · refine ⟨i, ?_⟩; grind
    have hq2 : s.heap q' = .live (.adouble a') := by grind
    obtain ⟨i', e⟩ := h5 q' a' hq2
    refine ⟨i', ?_⟩; grind
  case ctx =>
    intro k i' hk
    obtain ⟨q', c, e1, e2⟩ := h6 k i' hk
    refine ⟨q', c, ?_, ?_⟩ <;> grind
  case cbox =>
    intro q' c hq'
    have hq2 : s.heap q' = .live (.actx c) := by grind
    obtain ⟨i', e⟩ := h10 q' c hq2
    refine ⟨i', ?_⟩; grind
  all_goals grind

theorem OwnInv.mkMove {s : CxxState S} (h : OwnInv s) {z y j r : Nat} {b : AFloat S} (hz : s.doubles z = none)
    (hy : s.doubles y = some j) (hj : s.heap j = .live (.dImpl r)) (hr : s.heap r = .live (.adouble b)) :
    OwnInv (s.mkMove z j r) := by
  obtain ⟨h0, h1, h2, h3, h4, h5, h6, h7, h8, h9, h10⟩ := h
  have f0 := h0 s.next (Nat.le_refl _)
  have f1 := h0 (s.next + 1) (by omega)
  constructor <;> simp only [CxxState.mkMove]
  case dbl =>
    intro x' i' hx'
    by_cases hj' : i' = j
    · refine ⟨s.next + 1, AFloat.zero, ?_, ?_⟩ <;> grind
    by_cases hi' : x' = z
    · refine ⟨r, b, ?_, ?_⟩ <;> grind
    rw [if_neg hi'] at hx'
    obtain ⟨q', b', e1, e2⟩ := h1 x' i' hx'
    refine ⟨q', b', ?_, ?_⟩ <;> grind
  case dbox =>
    intro q' a' hq'
    by_cases hn : q' = s.next + 1
    · refine ⟨j, ?_⟩; grind
    by_cases hr' : q' = r
    · refine ⟨s.next, ?_⟩; grind
    have hq2 : s.heap q' = .live (.adouble a') := by grind
    obtain ⟨i', e⟩ := h5 q' a' hq2
    refine ⟨i', ?_⟩; grind
  case ctx =>
    intro k i' hk
    obtain ⟨q', c, e1, e2⟩ := h6 k i' hk
    refine ⟨q', c, ?_, ?_⟩ <;> grind
  case cbox =>
    intro q' c hq'
    have hq2 : s.heap q' = .live (.actx c) := by grind
    obtain ⟨i', e⟩ := h10 q' c hq2
    refine ⟨i', ?_⟩; grind
  all_goals grind

namespace CxxState

/-- State after constructing an `AContext` at `k`. -/
def mkCtx (s : CxxState S) (k c : Nat) : CxxState S :=
  { s with
    heap := fun p => if p = s.next + 1 then .live (.cImpl s.next) else if p = s.next then .live (.actx c) else s.heap p
    next := s.next + 2
    ctxs := fun y => if y = k then some (some (s.next + 1)) else s.ctxs y }

/-- State after releasing the context object at `k` with pointers `i`, `q`; afterwards the location holds `v`. -/
def killCtx (s : CxxState S) (k i q : Nat) (v : Option (Option Nat)) : CxxState S :=
  { s with
    heap := fun p => if p = i then .freed else if p = q then .freed else s.heap p
    ctxs := fun y => if y = k then v else s.ctxs y }

/-- State after moving the pointer of `l` to `k`. -/
def moveCtx (s : CxxState S) (k l : Nat) (p : Option Nat) : CxxState S :=
  { s with ctxs := fun y => if y = l then some none else if y = k then some p else s.ctxs y }

/-- Assign a pointer that owns nothing. -/
def setCtx (s : CxxState S) (k : Nat) (v : Option (Option Nat)) : CxxState S :=
  { s with ctxs := fun y => if y = k then v else s.ctxs y }

end CxxState

theorem OwnInv.mkCtx {s : CxxState S} (h : OwnInv s) {k : Nat} (hk : s.ctxs k = none) (c : Nat) :
    OwnInv (s.mkCtx k c) := by
  obtain ⟨h0, h1, h2, h3, h4, h5, h6, h7, h8, h9, h10⟩ := h
  have f0 := h0 s.next (Nat.le_refl _)
  have f1 := h0 (s.next + 1) (by omega)
  constructor <;> simp only [CxxState.mkCtx]
  case dbl =>
    intro x i hx
    obtain ⟨q, b, e1, e2⟩ := h1 x i hx
    refine ⟨q, b, ?_, ?_⟩ <;> grind
  case ctx =>
    intro l i hl
    by_cases hkl : l = k
    · refine ⟨s.next, c, ?_, ?_⟩ <;> grind
    · rw [if_neg hkl] at hl
      obtain ⟨q, b, e1, e2⟩ := h6 l i hl
      refine ⟨q, b, ?_, ?_⟩ <;> grind
  all_goals grind

theorem OwnInv.killCtx {s : CxxState S} (h : OwnInv s) {k i q c : Nat} (hk : s.ctxs k = some (some i))
    (hi : s.heap i = .live (.cImpl q)) (hq : s.heap q = .live (.actx c)) {v : Option (Option Nat)}
    (hv : v = none ∨ v = some none) : OwnInv (s.killCtx k i q v) := by
  obtain ⟨h0, h1, h2, h3, h4, h5, h6, h7, h8, h9, h10⟩ := h
  constructor <;> simp only [CxxState.killCtx]
  case dbl =>
    intro x i hx
    obtain ⟨q, b, e1, e2⟩ := h1 x i hx
    refine ⟨q, b, ?_, ?_⟩ <;> grind
  case ctx =>
    intro l i' hl
    by_cases hkl : l = k
    · grind
    · rw [if_neg hkl] at hl
      obtain ⟨q, b, e1, e2⟩ := h6 l i' hl
      refine ⟨q, b, ?_, ?_⟩ <;> grind
  all_goals grind

theorem OwnInv.setCtx {s : CxxState S} (h : OwnInv s) {k : Nat} (hk : ∀ i, s.ctxs k ≠ some (some i))
    {v : Option (Option Nat)} (hv : v = none ∨ v = some none) : OwnInv (s.setCtx k v) := by
  obtain ⟨h0, h1, h2, h3, h4, h5, h6, h7, h8, h9, h10⟩ := h
  refine ⟨h0, h1, h2, h3, h4, h5, ?_, ?_, h8, ?_, h10⟩ <;> simp only [CxxState.setCtx] <;> grind

theorem OwnInv.moveCtx {s : CxxState S} (h : OwnInv s) {k l : Nat} {p : Option Nat} (hkl : k ≠ l)
    (hk : ∀ i, s.ctxs k ≠ some (some i)) (hl : s.ctxs l = some p) : OwnInv (s.moveCtx k l p) := by
  obtain ⟨h0, h1, h2, h3, h4, h5, h6, h7, h8, h9, h10⟩ := h
  refine ⟨h0, h1, h2, h3, h4, h5, ?_, ?_, h8, ?_, h10⟩ <;> simp only [CxxState.moveCtx]
  · intro m i hm
    by_cases hml : m = l
    · grind
    · by_cases hmk : m = k
      · exact h6 l i (by grind)
      · exact h6 m i (by grind)
  · grind
  · intro i q hi
    obtain ⟨m, hm⟩ := h9 i q hi
    by_cases hml : m = l
    · exact ⟨k, by grind⟩
    · exact ⟨m, by grind⟩

/-! ### Rust code called by the bindings -/

/-- The Rust code `m` corresponds to finitely many API calls and has no undefined behaviour. -/
def Safe (m : M (World S) (AFloat S)) (hs : HState S) : Prop :=
  ∃ hs', HSteps hs hs' ∧ hs'.world = (m hs.world).2 ∧ hs'.handles = hs.handles ∧ (∀ a ∈ hs.vars, a ∈ hs'.vars) ∧
    (m hs.world).1 ≠ .error .dangling ∧ ∀ r, (m hs.world).1 = .ok r → r ∈ hs'.vars

theorem HSteps.trans {s t u : HState S} (h : HSteps s t) (h' : HSteps t u) : HSteps s u := by
  induction h' with
  | refl => exact h
  | tail _ hs ih => exact .tail ih hs

theorem Safe.bind {m : M (World S) (AFloat S)} {k : AFloat S → M (World S) (AFloat S)} {hs : HState S} (h : Safe m hs)
    (hk : ∀ r hs', HSteps hs hs' → (∀ a ∈ hs.vars, a ∈ hs'.vars) → r ∈ hs'.vars → Safe (k r) hs') : Safe (m >>= k) hs := by
  obtain ⟨hs1, g1, g2, g3, g4, g5, g6⟩ := h
  unfold Safe
  rw [M.bind_apply]
  rcases hm : m hs.world with ⟨e | r, w⟩
  · rw [hm] at g2 g5
    exact ⟨hs1, g1, g2, g3, g4, g5, by rintro r ⟨⟩⟩
  · rw [hm] at g2 g6
    obtain ⟨hs2, k1, k2, k3, k4, k5, k6⟩ := hk r hs1 g1 g4 (g6 r rfl)
    simp only at g2
    rw [g2] at k2 k5 k6
    exact ⟨hs2, g1.trans k1, k2, k3.trans g3, fun a ha => k4 a (g4 a ha), k5, k6⟩

theorem Safe.scalar {m : M (World S) (AFloat S)} {hs : HState S} (v dv : S)
    (h : Safe m ⟨hs.world, hs.handles, AFloat.new v dv :: hs.vars⟩) : Safe m hs := by
  obtain ⟨hs1, g1, g2, g3, g4, g5, g6⟩ := h
  exact ⟨hs1, HSteps.trans (.tail (.refl _) (.scalar v dv)) g1, g2, g3, fun a ha => g4 a (by simp [ha]), g5, g6⟩

theorem fromOp_not_dangling {hs : HState S} (hr : hs.Reachable) {o : OpCode} {a : AFloat S} {b : Option (AFloat S)}
    (har : arityOk o b = true) : (AFloat.fromOp o a b hs.world).1 ≠ .error .dangling := by
  rcases opCase a b with ⟨h1, h2⟩ | ⟨c, h1, h2, h3⟩ | ⟨b', c1, v1, c2, v2, rfl, h1, h2, h3⟩
  · rw [fromOp_free _ har h1 h2]; simp
  · rcases hc : hs.world.cells c with _ | ⟨n, i⟩
    · rw [fromOp_dead har h1 h2 h3 hc]; simp
    · have hn : 1 ≤ n := (hr.inv.alive c _ hc).2.2.2.2
      rcases hp : i.poisoned
      · rw [fromOp_live har h1 h2 h3 hc hn hp]; simp
      · rw [fromOp_poisoned har h1 h2 h3 hc hn hp]; simp
  · rw [fromOp_mixed _ h1 h2 h3 har]; simp

theorem Safe.op {hs : HState S} (hr : hs.Reachable) {o : OpCode} {a : AFloat S} {b : Option (AFloat S)}
    (har : arityOk o b = true) (ha : a ∈ hs.vars) (hb : ∀ b', b = some b' → b' ∈ hs.vars) :
    Safe (AFloat.fromOp o a b) hs := by
  have hnd := fromOp_not_dangling (a := a) hr har
  unfold Safe
  rcases hh : AFloat.fromOp o a b hs.world with ⟨r', w'⟩
  rw [hh] at hnd
  refine ⟨_, .tail (.refl _) (.op ha hb har hh), rfl, rfl, fun a ha => List.mem_append_right _ ha, hnd, fun r e => ?_⟩
  simp only at e
  subst e
  simp [Except.toOption]

theorem HState.Reachable.trans {s t : HState S} (h : s.Reachable) (h' : HSteps s t) : t.Reachable := HSteps.trans h h'

theorem Safe.arith {hs : HState S} (hr : hs.Reachable) {o : AFloat.ArithOp} {a b : AFloat S} (ha : a ∈ hs.vars)
    (hb : b ∈ hs.vars) : Safe (AFloat.arith o a b) hs :=
  Safe.op hr (by cases o <;> rfl) ha (by rintro b' ⟨⟩; exact hb)

theorem Safe.unary {hs : HState S} (hr : hs.Reachable) {u : Cxx.Unary} {a : AFloat S} (ha : a ∈ hs.vars) :
    Safe (u.run a) hs := by
  cases u <;> exact Safe.op hr rfl ha (by rintro b' ⟨⟩)

theorem Safe.binary {hs : HState S} (hr : hs.Reachable) {f : Cxx.Binary} {a b : AFloat S} (ha : a ∈ hs.vars)
    (hb : b ∈ hs.vars) : Safe (f.run a b) hs := by
  cases f <;>
  · refine Safe.bind (Safe.op hr rfl ha (by rintro b' ⟨⟩; exact hb)) fun r1 hs1 g1 k1 m1 => ?_
    refine Safe.bind (Safe.op (hr.trans g1) rfl (k1 _ ha) (by rintro b' ⟨⟩; exact k1 _ hb)) fun r2 hs2 g2 k2 m2 => ?_
    refine Safe.bind (Safe.op ((hr.trans g1).trans g2) rfl m2 (by rintro b' ⟨⟩)) fun r3 hs3 g3 k3 m3 => ?_
    refine Safe.bind (Safe.op (((hr.trans g1).trans g2).trans g3) rfl (k3 _ (k2 _ m1)) (by rintro b' ⟨⟩; exact m3))
      fun r4 hs4 g4 k4 m4 => ?_
    refine Safe.scalar Flt.half Flt.zero ?_
    refine Safe.op (((((hr.trans g1).trans g2).trans g3).trans g4).trans (.tail (.refl _) (.scalar Flt.half Flt.zero))) rfl
      (by simp [AFloat.ofScalar]) (by rintro b' ⟨⟩; simp [m4])

/-- The Rust side of `s` is the API state `hs`. -/
structure CxxSim (s : CxxState S) (hs : HState S) : Prop where
  reach : hs.Reachable
  world : hs.world = s.world
  vars : ∀ q a, s.heap q = .live (.adouble a) → a ∈ hs.vars
  nodup : hs.handles.Nodup
  handles : ∀ c, c ∈ hs.handles ↔ ∃ q, s.heap q = .live (.actx c)

/-- Invariant of C++ clients: ownership, and the Rust side is in a state reachable through the Rust API. -/
structure CxxInv (s : CxxState S) : Prop where
  own : OwnInv s
  cids : ∀ q q' c, s.heap q = .live (.actx c) → s.heap q' = .live (.actx c) → q = q'
  hist : ∃ hs, CxxSim s hs

theorem CxxInv.init : CxxInv (CxxState.init : CxxState S) :=
  ⟨OwnInv.init, by simp [CxxState.init], HState.init, .refl _, rfl, by simp [CxxState.init], by simp [HState.init],
    by simp [HState.init, CxxState.init]⟩

theorem Cxx.mImpl_ok {s : CxxState S} {x i : Nat} (h : s.doubles x = some i) : Cxx.mImpl x s = (.ok i, s) := by
  simp only [Cxx.mImpl, h]
theorem Cxx.load_ok {s : CxxState S} {p : Nat} {o : Obj S} (h : s.heap p = .live o) : Cxx.load p s = (.ok o, s) := by
  simp only [Cxx.load, h]
theorem Cxx.loadVal_ok {s : CxxState S} {i q : Nat} (h : s.heap i = .live (.dImpl q)) : Cxx.loadVal i s = (.ok q, s) := by
  simp only [Cxx.loadVal]
  rw [M.bind_ok (Cxx.load_ok h)]; rfl
theorem Cxx.loadDouble_ok {s : CxxState S} {i : Nat} {a : AFloat S} (h : s.heap i = .live (.adouble a)) :
    Cxx.loadDouble i s = (.ok a, s) := by
  simp only [Cxx.loadDouble]
  rw [M.bind_ok (Cxx.load_ok h)]; rfl
theorem Cxx.loadCtx_ok {s : CxxState S} {i c : Nat} (h : s.heap i = .live (.actx c)) :
    Cxx.loadCtx i s = (.ok ⟨c⟩, s) := by
  simp only [Cxx.loadCtx]
  rw [M.bind_ok (Cxx.load_ok h)]; rfl
theorem Cxx.loadCtxPtr_ok {s : CxxState S} {i q : Nat} (h : s.heap i = .live (.cImpl q)) :
    Cxx.loadCtxPtr i s = (.ok q, s) := by
  simp only [Cxx.loadCtxPtr]
  rw [M.bind_ok (Cxx.load_ok h)]; rfl
theorem Cxx.val_ok {s : CxxState S} {x i q : Nat} (h : s.doubles x = some i) (h' : s.heap i = .live (.dImpl q)) :
    Cxx.val x s = (.ok q, s) := by
  simp only [Cxx.val]
  rw [M.bind_ok (Cxx.mImpl_ok h), Cxx.loadVal_ok h']
theorem Cxx.dealloc_ok {s : CxxState S} {p : Nat} {o : Obj S} (h : s.heap p = .live o) :
    Cxx.dealloc p s = (.ok o, Cxx.setSlot s p .freed) := by
  simp only [Cxx.dealloc, h]
theorem Cxx.store_ok {s : CxxState S} {p : Nat} {o o' : Obj S} (h : s.heap p = .live o) :
    Cxx.store p o' s = (.ok (), Cxx.setSlot s p (.live o')) := by
  simp only [Cxx.store, h]
theorem Cxx.advFree_ok {s : CxxState S} {p : Nat} {a : AFloat S} (h : s.heap p = .live (.adouble a)) :
    Cxx.advFree p s = (.ok (), Cxx.setSlot s p .freed) := by
  simp only [Cxx.advFree]
  rw [M.bind_ok (Cxx.dealloc_ok h)]; rfl

/-- The pointers of a live object. -/
theorem OwnInv.get {s : CxxState S} (h : OwnInv s) {x : Nat} (hx : s.doubles x ≠ none) :
    ∃ i q a, s.doubles x = some i ∧ s.heap i = .live (.dImpl q) ∧ s.heap q = .live (.adouble a) := by
  rcases hd : s.doubles x with _ | i
  · exact absurd hd hx
  · obtain ⟨q, a, h1, h2⟩ := h.dbl x i hd
    exact ⟨i, q, a, rfl, h1, h2⟩

theorem Cxx.ctorDefault_eq (s : CxxState S) (z : Nat) : Cxx.ctorDefault z s = (.ok (), s.mk' z AFloat.zero) := rfl
theorem Cxx.ctorValue_eq (s : CxxState S) (z : Nat) (v : S) :
    Cxx.ctorValue z v s = (.ok (), s.mk' z (AFloat.ofScalar v)) := rfl

theorem Cxx.ctorCopy_eq {s : CxxState S} {z x i q : Nat} {a : AFloat S} (hx : s.doubles x = some i)
    (hi : s.heap i = .live (.dImpl q)) (hq : s.heap q = .live (.adouble a)) :
    Cxx.ctorCopy z x s = (.ok (), s.mk' z a) := by
  simp only [Cxx.ctorCopy, Cxx.advCopy]
  rw [M.bind_ok (Cxx.val_ok hx hi)]
  simp only [M.bind_apply, Cxx.loadDouble_ok hq]
  rfl

theorem Cxx.dtor_eq {s : CxxState S} {x i q : Nat} {a : AFloat S} (hx : s.doubles x = some i)
    (hi : s.heap i = .live (.dImpl q)) (hq : s.heap q = .live (.adouble a)) :
    Cxx.dtor x s = (.ok (), s.kill x i q) := by
  have hiq : i ≠ q := by rintro rfl; rw [hi] at hq; cases hq
  simp only [Cxx.dtor]
  rw [M.bind_ok (Cxx.mImpl_ok hx), M.bind_ok (Cxx.loadVal_ok hi), M.bind_ok (Cxx.advFree_ok hq),
    M.bind_ok (Cxx.dealloc_ok (o := .dImpl q) (by simp [Cxx.setSlot, hiq, hi]))]
  rfl

theorem Cxx.ctorMove_eq {s : CxxState S} (h : OwnInv s) {z x i q : Nat} {a : AFloat S} (hz : s.doubles z = none)
    (hx : s.doubles x = some i)
    (hi : s.heap i = .live (.dImpl q)) (hq : s.heap q = .live (.adouble a)) :
    Cxx.ctorMove z x s = (.ok (), s.mkMove z i q) := by
  have hin : i ≠ s.next := by rintro rfl; rw [h.fresh _ (Nat.le_refl _)] at hi; cases hi
  have hin1 : i ≠ s.next + 1 := by rintro rfl; rw [h.fresh _ (by omega)] at hi; cases hi
  have hzx : x ≠ z := by rintro rfl; rw [hz] at hx; cases hx
  simp only [Cxx.ctorMove]
  rw [M.bind_ok (Cxx.val_ok hx hi)]
  simp only [Cxx.ctorImpl, Cxx.advDefault]
  simp only [M.bind_apply, Cxx.alloc, Cxx.setDouble]
  rw [Cxx.mImpl_ok (i := i) (by simp [Cxx.setSlot, hzx, hx])]
  simp only
  rw [Cxx.store_ok (o := .dImpl q) (by simp [Cxx.setSlot, hin, hin1, hi])]
  rfl

theorem Cxx.assignCopy_eq {s : CxxState S} (h : OwnInv s) {x y i j q r : Nat} {a b : AFloat S} (hxy : x ≠ y)
    (hx : s.doubles x = some i) (hi : s.heap i = .live (.dImpl q)) (hq : s.heap q = .live (.adouble a))
    (hy : s.doubles y = some j) (hj : s.heap j = .live (.dImpl r)) (hr : s.heap r = .live (.adouble b)) :
    Cxx.assignCopy x y s = (.ok (), s.replace i q b) := by
  have hij : i ≠ j := by rintro rfl; exact hxy (h.dinj x y i hx hy)
  have hqr : q ≠ r := by rintro rfl; exact hij (h.dval i j q hi hj)
  have hjq : j ≠ q := by rintro rfl; rw [hj] at hq; cases hq
  have hiq : i ≠ q := by rintro rfl; rw [hi] at hq; cases hq
  have hin : i ≠ s.next := by rintro rfl; rw [h.fresh _ (Nat.le_refl _)] at hi; cases hi
  simp only [Cxx.assignCopy]
  rw [M.bind_ok (Cxx.val_ok hx hi), M.bind_ok (Cxx.advFree_ok hq),
    M.bind_ok (Cxx.val_ok (s := Cxx.setSlot s q .freed) (i := j) (q := r) hy (by simp [Cxx.setSlot, hjq, hj]))]
  simp only [Cxx.advCopy, M.bind_apply]
  rw [Cxx.loadDouble_ok (a := b) (by simp [Cxx.setSlot, Ne.symm hqr, hr])]
  simp only [Cxx.alloc]
  rw [Cxx.mImpl_ok (i := i) (by exact hx)]
  simp only
  rw [Cxx.store_ok (o := .dImpl q) (by simp [Cxx.setSlot, hin, hiq, hi])]
  rfl

theorem Cxx.assignMove_eq {s : CxxState S} (h : OwnInv s) {x y i j q r : Nat} {a b : AFloat S} (hxy : x ≠ y)
    (hx : s.doubles x = some i) (hi : s.heap i = .live (.dImpl q)) (hq : s.heap q = .live (.adouble a))
    (hy : s.doubles y = some j) (hj : s.heap j = .live (.dImpl r)) (hr : s.heap r = .live (.adouble b)) :
    Cxx.assignMove x y s = (.ok (), s.moved i j q r) := by
  have hij : i ≠ j := by rintro rfl; exact hxy (h.dinj x y i hx hy)
  have hqr : q ≠ r := by rintro rfl; exact hij (h.dval i j q hi hj)
  have hjq : j ≠ q := by rintro rfl; rw [hj] at hq; cases hq
  have hiq : i ≠ q := by rintro rfl; rw [hi] at hq; cases hq
  have hin : i ≠ s.next := by rintro rfl; rw [h.fresh _ (Nat.le_refl _)] at hi; cases hi
  have hjn : j ≠ s.next := by rintro rfl; rw [h.fresh _ (Nat.le_refl _)] at hj; cases hj
  simp only [Cxx.assignMove]
  rw [M.bind_ok (Cxx.val_ok hx hi), M.bind_ok (Cxx.advFree_ok hq),
    M.bind_ok (Cxx.val_ok (s := Cxx.setSlot s q .freed) (i := j) (q := r) hy (by simp [Cxx.setSlot, hjq, hj])),
    M.bind_ok (Cxx.mImpl_ok (s := Cxx.setSlot s q .freed) (i := i) hx), M.bind_ok (Cxx.store_ok (o := .dImpl q) (by simp [Cxx.setSlot, hiq, hi]))]
  simp only [Cxx.advDefault, M.bind_apply, Cxx.alloc]
  rw [Cxx.mImpl_ok (i := j) (by exact hy)]
  simp only
  rw [Cxx.store_ok (o := .dImpl r) (by simp [Cxx.setSlot, hjn, hjq, Ne.symm hij, hj])]
  rfl

theorem Cxx.assignMove_self {s : CxxState S} (h : OwnInv s) {x i q : Nat} {a : AFloat S}
    (hx : s.doubles x = some i) (hi : s.heap i = .live (.dImpl q)) (hq : s.heap q = .live (.adouble a)) :
    Cxx.assignMove x x s = (.ok (), s.replace i q AFloat.zero) := by
  have hiq : i ≠ q := by rintro rfl; rw [hi] at hq; cases hq
  have hin : i ≠ s.next := by rintro rfl; rw [h.fresh _ (Nat.le_refl _)] at hi; cases hi
  simp only [Cxx.assignMove]
  rw [M.bind_ok (Cxx.val_ok hx hi), M.bind_ok (Cxx.advFree_ok hq),
    M.bind_ok (Cxx.val_ok (s := Cxx.setSlot s q .freed) (i := i) (q := q) hx (by simp [Cxx.setSlot, hiq, hi])),
    M.bind_ok (Cxx.mImpl_ok (s := Cxx.setSlot s q .freed) (i := i) hx), M.bind_ok (Cxx.store_ok (o := .dImpl q) (by simp [Cxx.setSlot, hiq, hi]))]
  simp only [Cxx.advDefault, M.bind_apply, Cxx.alloc]
  rw [Cxx.mImpl_ok (i := i) (by exact hx)]
  simp only
  rw [Cxx.store_ok (o := .dImpl q) (by simp [Cxx.setSlot, hin])]
  simp only [Cxx.setSlot, CxxState.replace, Prod.mk.injEq, true_and, CxxState.mk.injEq, and_true]
  funext p
  grind

theorem Cxx.assignCopy_self {s : CxxState S} {x i q : Nat} {a : AFloat S}
    (hx : s.doubles x = some i) (hi : s.heap i = .live (.dImpl q)) (hq : s.heap q = .live (.adouble a)) :
    (Cxx.assignCopy x x s).1 = .error .dangling := by
  have hiq : i ≠ q := by rintro rfl; rw [hi] at hq; cases hq
  simp only [Cxx.assignCopy]
  rw [M.bind_ok (Cxx.val_ok hx hi), M.bind_ok (Cxx.advFree_ok hq),
    M.bind_ok (Cxx.val_ok (s := Cxx.setSlot s q .freed) (i := i) (q := q) hx (by simp [Cxx.setSlot, hiq, hi]))]
  simp only [Cxx.advCopy, M.bind_apply, Cxx.loadDouble, Cxx.load, Cxx.setSlot, if_true]


theorem Cxx.ctxPtr_ok {s : CxxState S} {k p q : Nat} (h : s.ctxs k = some (some p)) (hp : s.heap p = .live (.cImpl q)) :
    Cxx.ctxPtr k s = (.ok q, s) := by
  simp only [Cxx.ctxPtr, Cxx.cImpl, M.bind_apply, h]
  exact Cxx.loadCtxPtr_ok hp

/-- The result of safe Rust code is stored in a new object. -/
theorem CxxInv.result {s : CxxState S} (h : CxxInv s) {z : Nat} (hz : s.doubles z = none) {m : M (World S) (AFloat S)}
    (hm : ∀ hs, CxxSim s hs → Safe m hs) : (m s.world).1 ≠ .error .dangling ∧
      ∀ r, (m s.world).1 = .ok r → CxxInv (({ s with world := (m s.world).2 } : CxxState S).mk' z r) := by
  obtain ⟨hs, hsim⟩ := h.hist
  obtain ⟨hs', hst, e1, e2, e3, e4, e5⟩ := hm hs hsim
  rw [hsim.world] at e1 e4 e5
  refine ⟨e4, fun a ha => ?_⟩
  have hf := h.own.fresh
  refine ⟨OwnInv.mk' (h.own.world (m s.world).2) hz _, ?_, hs', hsim.reach.trans hst, by rw [e1]; rfl, ?_, by rw [e2]; exact hsim.nodup, ?_⟩
  · intro q q' c h1 h2
    simp only [CxxState.mk'] at h1 h2
    exact h.cids q q' c (by grind) (by grind)
  · intro q b hb
    simp only [CxxState.mk'] at hb
    by_cases hq : s.heap q = .live (.adouble b)
    · exact e3 _ (hsim.vars q b hq)
    · have := e5 a ha
      grind
  · intro c
    rw [e2, hsim.handles]
    simp only [CxxState.mk']
    constructor
    · rintro ⟨q, hq⟩
      refine ⟨q, ?_⟩
      have := hf q
      grind
    · rintro ⟨q, hq⟩
      refine ⟨q, ?_⟩
      grind

theorem Safe.pure {hs : HState S} {a : AFloat S} (ha : a ∈ hs.vars) : Safe (Pure.pure a) hs :=
  ⟨hs, .refl _, rfl, rfl, fun _ h => h, by simp [M.pure_apply], by
    intro r hr
    rw [M.pure_apply] at hr
    injection hr with hr
    exact hr ▸ ha⟩

theorem CxxInv.mk' {s : CxxState S} (h : CxxInv s) {z : Nat} (hz : s.doubles z = none) {a : AFloat S}
    (ha : ∃ q, s.heap q = .live (.adouble a)) : CxxInv (s.mk' z a) :=
  (h.result hz (m := Pure.pure a) fun _ hsim => .pure (let ⟨q, hq⟩ := ha; hsim.vars q a hq)).2 a rfl

theorem CxxInv.mk_new {s : CxxState S} (h : CxxInv s) {z : Nat} (hz : s.doubles z = none) (v dv : S) :
    CxxInv (s.mk' z (AFloat.new v dv)) :=
  (h.result hz (m := Pure.pure (AFloat.new v dv)) fun _ _ => .scalar v dv (.pure List.mem_cons_self)).2 _ rfl

/-- Changing the heap without touching the context boxes and without adding variables keeps the invariant. -/
theorem CxxInv.of_own {s s' : CxxState S} (h : CxxInv s) (ho : OwnInv s') (hw : s'.world = s.world)
    (hv : ∀ q a, s'.heap q = .live (.adouble a) → (∃ q', s.heap q' = .live (.adouble a)) ∨ a = AFloat.zero)
    (hc : ∀ q c, s'.heap q = .live (.actx c) ↔ s.heap q = .live (.actx c)) : CxxInv s' := by
  obtain ⟨hs, hsim⟩ := h.hist
  refine ⟨ho, ?_, ⟨hs.world, hs.handles, AFloat.zero :: hs.vars⟩, hsim.reach.trans (.tail (.refl _) (.scalar Flt.zero Flt.zero)),
    by rw [hw]; exact hsim.world, ?_, hsim.nodup, ?_⟩
  · intro q q' c h1 h2
    exact h.cids q q' c ((hc _ _).1 h1) ((hc _ _).1 h2)
  · intro q a ha
    rcases hv q a ha with ⟨q', hq⟩ | rfl
    · exact List.mem_cons_of_mem _ (hsim.vars _ _ hq)
    · exact List.mem_cons_self
  · intro c
    refine (hsim.handles c).trans (exists_congr fun q => (hc q c).symm)

/-- Storing the outcome of Rust code in a new object. -/
def Cxx.construct (z : Nat) (m : M (World S) (AFloat S)) : M (CxxState S) Unit := fun s =>
  match m s.world with
  | (.ok r, w) => (.ok (), ({ s with world := w } : CxxState S).mk' z r)
  | (.error e, w) => (.error e, { s with world := w })

theorem Cxx.rust_alloc {s : CxxState S} {z : Nat} {m : M (World S) (AFloat S)} :
    (do Cxx.ctorImpl z (← (do let r ← Cxx.rust m; Cxx.alloc (.adouble r))) : M (CxxState S) Unit) s = Cxx.construct z m s := by
  simp only [Cxx.construct, M.bind_apply, Cxx.rust]
  rcases m s.world with ⟨e | r, w⟩ <;> rfl

theorem Cxx.operator_eq {s : CxxState S} {o : AFloat.ArithOp} {z x y i j q r : Nat} {a b : AFloat S}
    (hx : s.doubles x = some i) (hi : s.heap i = .live (.dImpl q)) (hq : s.heap q = .live (.adouble a))
    (hy : s.doubles y = some j) (hj : s.heap j = .live (.dImpl r)) (hr : s.heap r = .live (.adouble b)) :
    Cxx.operator o z x y s = Cxx.construct z (AFloat.arith o a b) s := by
  rw [← Cxx.rust_alloc]
  simp only [Cxx.operator, Cxx.advOp]
  rw [M.bind_ok (Cxx.val_ok hx hi), M.bind_ok (Cxx.val_ok hy hj)]
  simp only [M.bind_apply, Cxx.loadDouble_ok hq, Cxx.loadDouble_ok hr]

theorem Cxx.unary_eq {s : CxxState S} {u : Cxx.Unary} {z x i q : Nat} {a : AFloat S}
    (hx : s.doubles x = some i) (hi : s.heap i = .live (.dImpl q)) (hq : s.heap q = .live (.adouble a)) :
    Cxx.unary u z x s = Cxx.construct z (u.run a) s := by
  rw [← Cxx.rust_alloc]
  simp only [Cxx.unary, Cxx.advUnary]
  rw [M.bind_ok (Cxx.val_ok hx hi)]
  simp only [M.bind_apply, Cxx.loadDouble_ok hq]

theorem Cxx.binary_eq {s : CxxState S} {f : Cxx.Binary} {z x y i j q r : Nat} {a b : AFloat S}
    (hx : s.doubles x = some i) (hi : s.heap i = .live (.dImpl q)) (hq : s.heap q = .live (.adouble a))
    (hy : s.doubles y = some j) (hj : s.heap j = .live (.dImpl r)) (hr : s.heap r = .live (.adouble b)) :
    Cxx.binary f z x y s = Cxx.construct z (f.run a b) s := by
  rw [← Cxx.rust_alloc]
  simp only [Cxx.binary, Cxx.advBinary]
  rw [M.bind_ok (Cxx.val_ok hx hi), M.bind_ok (Cxx.val_ok hy hj)]
  simp only [M.bind_apply, Cxx.loadDouble_ok hq, Cxx.loadDouble_ok hr]

theorem Cxx.newIndependent_eq {s : CxxState S} {z k i q c : Nat}
    (hk : s.ctxs k = some (some i)) (hi : s.heap i = .live (.cImpl q)) (hq : s.heap q = .live (.actx c)) :
    Cxx.newIndependent z k s = Cxx.construct z (AContext.newIndep ⟨c⟩ Flt.zero) s := by
  rw [← Cxx.rust_alloc]
  simp only [Cxx.newIndependent, Cxx.advContextNewIndependent]
  rw [M.bind_ok (Cxx.ctxPtr_ok hk hi)]
  simp only [M.bind_apply, Cxx.loadCtx_ok hq]

theorem Cxx.setDependent_eq {s : CxxState S} {k i q c x j r : Nat} {a : AFloat S}
    (hk : s.ctxs k = some (some i)) (hi : s.heap i = .live (.cImpl q)) (hq : s.heap q = .live (.actx c))
    (hx : s.doubles x = some j) (hj : s.heap j = .live (.dImpl r)) (hr : s.heap r = .live (.adouble a)) :
    Cxx.setDependent k x s = ((AContext.setDep ⟨c⟩ a s.world).1, { s with world := (AContext.setDep ⟨c⟩ a s.world).2 }) := by
  simp only [Cxx.setDependent, Cxx.advContextSetDependent]
  rw [M.bind_ok (Cxx.ctxPtr_ok hk hi), M.bind_ok (Cxx.val_ok hx hj), M.bind_ok (Cxx.loadCtx_ok hq),
    M.bind_ok (Cxx.loadDouble_ok hr)]
  rfl

theorem CxxInv.construct {s : CxxState S} (h : CxxInv s) {z : Nat} (hz : s.doubles z = none) {m : M (World S) (AFloat S)}
    (hm : ∀ hs, CxxSim s hs → Safe m hs) : (Cxx.construct z m s).1 ≠ .error .dangling ∧
      ((Cxx.construct z m s).1 = .ok () → CxxInv (Cxx.construct z m s).2) := by
  obtain ⟨h1, h2⟩ := h.result hz hm
  simp only [Cxx.construct]
  rcases hh : m s.world with ⟨e | r, w⟩
  · rw [hh] at h1
    refine ⟨?_, ?_⟩
    · intro e'; injection e' with e'; exact h1 (by rw [e'])
    · rintro ⟨⟩
  · rw [hh] at h2
    exact ⟨by simp, fun _ => h2 r rfl⟩

theorem CxxInv.kill {s : CxxState S} (h : CxxInv s) {x i q : Nat} {a : AFloat S} (hx : s.doubles x = some i)
    (hi : s.heap i = .live (.dImpl q)) (hq : s.heap q = .live (.adouble a)) : CxxInv (s.kill x i q) := by
  refine h.of_own (h.own.kill hx hi hq) rfl ?_ ?_ <;> simp only [CxxState.kill] <;> grind

theorem CxxInv.replace {s : CxxState S} (h : CxxInv s) {x i q : Nat} {a : AFloat S} (hx : s.doubles x = some i)
    (hi : s.heap i = .live (.dImpl q)) (hq : s.heap q = .live (.adouble a)) {b : AFloat S}
    (hb : (∃ r, s.heap r = .live (.adouble b)) ∨ b = AFloat.zero) : CxxInv (s.replace i q b) := by
  have f0 := h.own.fresh s.next (Nat.le_refl _)
  refine h.of_own (h.own.replace hx hi hq b) rfl ?_ ?_ <;> simp only [CxxState.replace] <;> grind

theorem CxxInv.moved {s : CxxState S} (h : CxxInv s) {x y i j q r : Nat} {a b : AFloat S} (hxy : x ≠ y)
    (hx : s.doubles x = some i) (hy : s.doubles y = some j)
    (hi : s.heap i = .live (.dImpl q)) (hq : s.heap q = .live (.adouble a))
    (hj : s.heap j = .live (.dImpl r)) (hr : s.heap r = .live (.adouble b)) : CxxInv (s.moved i j q r) := by
  have f0 := h.own.fresh s.next (Nat.le_refl _)
  refine h.of_own (h.own.moved hxy hx hy hi hq hj hr) rfl ?_ ?_ <;> simp only [CxxState.moved] <;> grind

theorem CxxInv.mkMove {s : CxxState S} (h : CxxInv s) {z y j r : Nat} {b : AFloat S} (hz : s.doubles z = none)
    (hy : s.doubles y = some j) (hj : s.heap j = .live (.dImpl r)) (hr : s.heap r = .live (.adouble b)) :
    CxxInv (s.mkMove z j r) := by
  have f0 := h.own.fresh s.next (Nat.le_refl _)
  have f1 := h.own.fresh (s.next + 1) (by omega)
  refine h.of_own (h.own.mkMove hz hy hj hr) rfl ?_ ?_ <;> simp only [CxxState.mkMove] <;> grind

theorem CxxInv.moveCtx {s : CxxState S} (h : CxxInv s) {k l : Nat} {p : Option Nat} (hkl : k ≠ l)
    (hk : ∀ i, s.ctxs k ≠ some (some i)) (hl : s.ctxs l = some p) : CxxInv (s.moveCtx k l p) :=
  h.of_own (h.own.moveCtx hkl hk hl) rfl (fun q _ ha => .inl ⟨q, ha⟩) fun _ _ => Iff.rfl

theorem CxxInv.setCtx {s : CxxState S} (h : CxxInv s) {k : Nat} (hk : ∀ i, s.ctxs k ≠ some (some i))
    {v : Option (Option Nat)} (hv : v = none ∨ v = some none) : CxxInv (s.setCtx k v) :=
  h.of_own (h.own.setCtx hk hv) rfl (fun q _ ha => .inl ⟨q, ha⟩) fun _ _ => Iff.rfl

/-- In a state of a C++ client every context has exactly one handle. -/
theorem CxxInv.live_ctx {s : CxxState S} (h : CxxInv s) {q c : Nat} (hq : s.heap q = .live (.actx c)) :
    ∃ i, s.world.cells c = some ⟨1, i⟩ := by
  obtain ⟨hs, hsim⟩ := h.hist
  have hc := (hsim.handles c).2 ⟨q, hq⟩
  rcases hw : s.world.cells c with _ | ⟨n, i⟩
  · exact absurd hc (hsim.reach.inv.dead c (by rw [hsim.world, hw]))
  · have := (hsim.reach.inv.alive c ⟨n, i⟩ (by rw [hsim.world, hw])).2.2.2.1
    rw [hsim.nodup.count, if_pos hc] at this
    exact ⟨i, by rw [show n = 1 from this]⟩

/-- Release of a context object. -/
theorem CxxInv.killCtx {s : CxxState S} (h : CxxInv s) {k i q c : Nat} (hk : s.ctxs k = some (some i))
    (hi : s.heap i = .live (.cImpl q)) (hq : s.heap q = .live (.actx c)) {v : Option (Option Nat)}
    (hv : v = none ∨ v = some none) :
    CxxInv (({ s with world := s.world.setCell c none } : CxxState S).killCtx k i q v) := by
  obtain ⟨n, hn⟩ := h.live_ctx hq
  obtain ⟨hs, hsim⟩ := h.hist
  have hc := (hsim.handles c).2 ⟨q, hq⟩
  have hd : AContext.drop ⟨c⟩ hs.world = (.ok (), s.world.setCell c none) := by
    rw [hsim.world]
    simp only [AContext.drop, hn, Nat.le_refl, if_true]
  have hcid := h.cids
  refine ⟨OwnInv.killCtx (h.own.world (s.world.setCell c none)) hk hi hq hv, ?_, _, hsim.reach.trans (.tail (.refl _) (.drop hc hd)), rfl, ?_,
    hsim.nodup.erase c, ?_⟩
  · intro q1 q2 c1 h1 h2
    simp only [CxxState.killCtx] at h1 h2
    exact h.cids q1 q2 c1 (by grind) (by grind)
  · intro q1 a1 h1
    simp only [CxxState.killCtx] at h1
    exact hsim.vars q1 a1 (by grind)
  · intro c1
    simp only [CxxState.killCtx]
    rw [hsim.nodup.mem_erase_iff, hsim.handles]
    constructor
    · rintro ⟨hne, q1, h1⟩
      refine ⟨q1, ?_⟩
      grind
    · rintro ⟨q1, h1⟩
      have h2 : s.heap q1 = .live (.actx c1) := by grind
      refine ⟨?_, q1, h2⟩
      rintro rfl
      have := hcid q1 q c1 h2 hq
      grind

theorem CxxInv.mkCtx {s : CxxState S} (h : CxxInv s) {k : Nat} (hk : s.ctxs k = none) (hid : s.world.nextId < usizeMax)
    {w : World S} {x : AContext} (e : AContext.new s.world = (.ok x, w)) :
    CxxInv (({ s with world := w } : CxxState S).mkCtx k x.cid) := by
  obtain ⟨hs, hsim⟩ := h.hist
  obtain ⟨hx, hw⟩ := new_ok hid e
  have f0 := h.own.fresh s.next (Nat.le_refl _)
  have f1 := h.own.fresh (s.next + 1) (by omega)
  have hnew : x.cid ∉ hs.handles := by
    intro hmem
    rcases hc : hs.world.cells x.cid with _ | cell
    · exact hsim.reach.inv.dead _ hc hmem
    · have := (hsim.reach.inv.alive _ _ hc).2.2.1
      rw [hsim.world, hx] at this
      exact Nat.lt_irrefl _ this
  have hnew' : ∀ q, s.heap q ≠ .live (.actx x.cid) := fun q hq => hnew ((hsim.handles _).2 ⟨q, hq⟩)
  refine ⟨OwnInv.mkCtx (h.own.world w) hk _, ?_, _,
    hsim.reach.trans (.tail (.refl _) (.new (by rw [hsim.world]; exact hid) (by rw [hsim.world]; exact e))), rfl, ?_,
    List.nodup_cons.2 ⟨hnew, hsim.nodup⟩, ?_⟩
  · intro q1 q2 c1 h1 h2
    simp only [CxxState.mkCtx] at h1 h2
    have := h.cids q1 q2 c1
    have := hnew' q1
    have := hnew' q2
    grind
  · intro q1 a1 h1
    simp only [CxxState.mkCtx] at h1
    exact hsim.vars q1 a1 (by grind)
  · intro c1
    simp only [CxxState.mkCtx, List.mem_cons]
    rw [hsim.handles]
    constructor
    · rintro (rfl | ⟨q, hq⟩)
      · exact ⟨s.next, by simp⟩
      · exact ⟨q, by grind⟩
    · rintro ⟨q, hq⟩
      by_cases h1 : q = s.next
      · left; grind
      · exact .inr ⟨q, by grind⟩


theorem Cxx.release_eq {s : CxxState S} (h : CxxInv s) {i q c : Nat} (hi : s.heap i = .live (.cImpl q))
    (hq : s.heap q = .live (.actx c)) : Cxx.release (some i) s =
      (.ok (), Cxx.setSlot { Cxx.setSlot s q .freed with world := s.world.setCell c none } i .freed) := by
  obtain ⟨n, hn⟩ := h.live_ctx hq
  have hiq : i ≠ q := by rintro rfl; rw [hi] at hq; cases hq
  simp only [Cxx.release, Cxx.advContextFree]
  rw [M.bind_ok (Cxx.loadCtxPtr_ok hi)]
  simp only [M.bind_apply, Cxx.dealloc_ok hq, Cxx.rust]
  rw [show AContext.drop ⟨c⟩ (Cxx.setSlot s q .freed).world = (.ok (), s.world.setCell c none) by
    simp only [AContext.drop, Cxx.setSlot, hn, Nat.le_refl, if_true]]
  simp only
  rw [Cxx.dealloc_ok (o := .cImpl q) (by simp [Cxx.setSlot, hiq, hi])]
  rfl

theorem Cxx.cImpl_ok {s : CxxState S} {k : Nat} {p : Option Nat} (h : s.ctxs k = some p) : Cxx.cImpl k s = (.ok p, s) := by
  simp only [Cxx.cImpl, h]

theorem OwnInv.getCtx {s : CxxState S} (h : OwnInv s) {k i : Nat} (hk : s.ctxs k = some (some i)) :
    ∃ q c, s.heap i = .live (.cImpl q) ∧ s.heap q = .live (.actx c) := h.ctx k i hk

theorem Cxx.ctxDtor_eq {s : CxxState S} (h : CxxInv s) {k i q c : Nat} (hk : s.ctxs k = some (some i))
    (hi : s.heap i = .live (.cImpl q)) (hq : s.heap q = .live (.actx c)) :
    Cxx.ctxDtor k s = (.ok (), ({ s with world := s.world.setCell c none } : CxxState S).killCtx k i q none) := by
  simp only [Cxx.ctxDtor]
  rw [M.bind_ok (Cxx.cImpl_ok hk), M.bind_ok (Cxx.release_eq h hi hq)]
  rfl

theorem Cxx.ctxDtor_null {s : CxxState S} {k : Nat} (hk : s.ctxs k = some none) :
    Cxx.ctxDtor k s = (.ok (), s.setCtx k none) := by
  simp only [Cxx.ctxDtor]
  rw [M.bind_ok (Cxx.cImpl_ok hk)]
  rfl

theorem Cxx.ctxAssignMove_eq {s : CxxState S} (h : CxxInv s) {k l i q c : Nat} {p : Option Nat}
    (hk : s.ctxs k = some (some i)) (hl : s.ctxs l = some p)
    (hi : s.heap i = .live (.cImpl q)) (hq : s.heap q = .live (.actx c)) :
    Cxx.ctxAssignMove k l s =
      (.ok (), (({ s with world := s.world.setCell c none } : CxxState S).killCtx k i q (some none)).moveCtx k l p) := by
  simp only [Cxx.ctxAssignMove]
  rw [M.bind_ok (Cxx.cImpl_ok hk), M.bind_ok (Cxx.release_eq h hi hq)]
  simp only [M.bind_apply]
  rw [Cxx.cImpl_ok (p := p) (by exact hl)]
  simp only [Cxx.setCtx, Cxx.setSlot, CxxState.moveCtx, CxxState.killCtx, Prod.mk.injEq, true_and, CxxState.mk.injEq]
  funext y
  grind

theorem Cxx.ctxAssignMove_null {s : CxxState S} {k l : Nat} {p : Option Nat}
    (hk : s.ctxs k = some none) (hl : s.ctxs l = some p) :
    Cxx.ctxAssignMove k l s = (.ok (), s.moveCtx k l p) := by
  simp only [Cxx.ctxAssignMove]
  rw [M.bind_ok (Cxx.cImpl_ok hk)]
  simp only [M.bind_apply, Cxx.release, M.pure_apply]
  rw [Cxx.cImpl_ok hl]
  rfl

theorem Cxx.ctxAssignMove_self {s : CxxState S} (h : CxxInv s) {k i q c : Nat}
    (hk : s.ctxs k = some (some i))
    (hi : s.heap i = .live (.cImpl q)) (hq : s.heap q = .live (.actx c)) :
    Cxx.ctxAssignMove k k s =
      (.ok (), ({ s with world := s.world.setCell c none } : CxxState S).killCtx k i q (some none)) := by
  simp only [Cxx.ctxAssignMove]
  rw [M.bind_ok (Cxx.cImpl_ok hk), M.bind_ok (Cxx.release_eq h hi hq)]
  simp only [M.bind_apply]
  rw [Cxx.cImpl_ok (p := some i) (by exact hk)]
  simp only [Cxx.setCtx, Cxx.setSlot, CxxState.killCtx, Prod.mk.injEq, true_and, CxxState.mk.injEq]
  funext y
  grind

theorem Cxx.ctxCtor_eq {s : CxxState S} {k : Nat} (hid : s.world.nextId < usizeMax) :
    ∃ x w, AContext.new s.world = (.ok x, w) ∧
      Cxx.ctxCtor k s = (.ok (), ({ s with world := w } : CxxState S).mkCtx k x.cid) := by
  have e : AContext.new s.world = (.ok ⟨s.world.nextId⟩,
    ({ s.world with nextId := (s.world.nextId + 1) % 2 ^ 64 } : World S).setCell s.world.nextId
      (some ⟨1, Inner.construct s.world.nextId⟩)) := by
    simp only [AContext.new, hid, if_true]
  refine ⟨_, _, e, ?_⟩
  simp only [Cxx.ctxCtor, Cxx.advContextNew, M.bind_apply, Cxx.rust, e]
  rfl

theorem Safe.newIndep {s : CxxState S} {hs : HState S} (hsim : CxxSim s hs) {q c : Nat} (hq : s.heap q = .live (.actx c)) :
    Safe (AContext.newIndep ⟨c⟩ Flt.zero) hs := by
  have hc := (hsim.handles c).2 ⟨q, hq⟩
  refine .scalar Flt.zero Flt.zero ?_
  have hr := hsim.reach.trans (.tail (.refl _) (.scalar Flt.zero Flt.zero))
  obtain ⟨n, i, hcell, h⟩ := setIndep_effect hr.inv (a := AFloat.new Flt.zero Flt.zero) hc
  unfold Safe AContext.newIndep
  rcases h with ⟨hp, e⟩ | ⟨hp, e⟩
  · rw [e]
    exact ⟨_, .refl _, rfl, rfl, fun _ h => h, by simp, by rintro r ⟨⟩⟩
  · rw [e]
    refine ⟨_, .tail (.refl _) (.setIndep hc List.mem_cons_self e), rfl, rfl, fun _ h => List.mem_append_right _ h, by simp, ?_⟩
    intro r hr
    simp only at hr
    injection hr with hr
    simp [Except.toOption, hr]

/-- No undefined behaviour, and the invariant is preserved. -/
theorem CxxInv.exec {s : CxxState S} (h : CxxInv s) {cmd : CxxCmd S} (hv : cmd.Valid s) (hself : ¬ cmd.SelfCopy) :
    (cmd.exec s).1 ≠ .error .dangling ∧ ((cmd.exec s).1 = .ok () → CxxInv (cmd.exec s).2) := by
  have key : ∀ {m : M (CxxState S) Unit} {s' : CxxState S}, m s = (.ok (), s') → CxxInv s' →
      (m s).1 ≠ .error .dangling ∧ ((m s).1 = .ok () → CxxInv (m s).2) := by
    intro m s' e h'
    rw [e]
    exact ⟨by simp, fun _ => h'⟩
  cases cmd with
  | dDefault z => exact key (Cxx.ctorDefault_eq s z) (h.mk_new hv _ _)
  | dValue z v => exact key (Cxx.ctorValue_eq s z v) (h.mk_new hv _ _)
  | dCopy z x =>
    obtain ⟨i, q, a, h1, h2, h3⟩ := h.own.get hv.2
    exact key (Cxx.ctorCopy_eq h1 h2 h3) (h.mk' hv.1 ⟨q, h3⟩)
  | dMove z x =>
    obtain ⟨i, q, a, h1, h2, h3⟩ := h.own.get hv.2
    exact key (Cxx.ctorMove_eq h.own hv.1 h1 h2 h3) (h.mkMove hv.1 h1 h2 h3)
  | dAssignCopy x y =>
    obtain ⟨i, q, a, h1, h2, h3⟩ := h.own.get hv.1
    obtain ⟨j, r, b, k1, k2, k3⟩ := h.own.get hv.2
    exact key (Cxx.assignCopy_eq h.own hself h1 h2 h3 k1 k2 k3) (h.replace h1 h2 h3 (.inl ⟨r, k3⟩))
  | dAssignMove x y =>
    obtain ⟨i, q, a, h1, h2, h3⟩ := h.own.get hv.1
    obtain ⟨j, r, b, k1, k2, k3⟩ := h.own.get hv.2
    by_cases hxy : x = y
    · subst hxy
      exact key (Cxx.assignMove_self h.own h1 h2 h3) (h.replace h1 h2 h3 (.inr rfl))
    · exact key (Cxx.assignMove_eq h.own hxy h1 h2 h3 k1 k2 k3) (h.moved hxy h1 k1 h2 h3 k2 k3)
  | dDestroy x =>
    obtain ⟨i, q, a, h1, h2, h3⟩ := h.own.get hv
    exact key (Cxx.dtor_eq h1 h2 h3) (h.kill h1 h2 h3)
  | dOp o z x y =>
    obtain ⟨hz, hx, hy⟩ := hv
    obtain ⟨i, q, a, h1, h2, h3⟩ := h.own.get hx
    obtain ⟨j, r, b, k1, k2, k3⟩ := h.own.get hy
    simp only [CxxCmd.exec]
    rw [Cxx.operator_eq h1 h2 h3 k1 k2 k3]
    exact h.construct hz fun hs hsim => .arith hsim.reach (hsim.vars _ _ h3) (hsim.vars _ _ k3)
  | dMixed o z t v y =>
    obtain ⟨hz, ht, hzt, hy⟩ := hv
    have h' : CxxInv (s.mk' t (AFloat.ofScalar v)) := h.mk_new ht _ _
    simp only [CxxCmd.exec, Cxx.operatorMixed]
    rw [M.bind_ok (Cxx.ctorValue_eq s t v)]
    have hz1 : (s.mk' t (AFloat.ofScalar v)).doubles z = none := by simp [CxxState.mk', hzt, hz]
    have ht1 : (s.mk' t (AFloat.ofScalar v)).doubles t ≠ none := by simp [CxxState.mk']
    have hy1 : (s.mk' t (AFloat.ofScalar v)).doubles y ≠ none := by
      simp only [CxxState.mk']
      split
      · simp
      · exact hy
    generalize s.mk' t (AFloat.ofScalar v) = s1 at *
    obtain ⟨i, q, a, h1, h2, h3⟩ := h'.own.get ht1
    obtain ⟨j, r, b, k1, k2, k3⟩ := h'.own.get hy1
    obtain ⟨g1, g2⟩ := h'.result hz1 (m := AFloat.arith .add a b)
      fun hs hsim => .arith hsim.reach (hsim.vars _ _ h3) (hsim.vars _ _ k3)
    simp only [M.bind_apply]
    rw [Cxx.operator_eq h1 h2 h3 k1 k2 k3]
    simp only [Cxx.construct]
    rcases hh : AFloat.arith .add a b s1.world with ⟨e | r, w⟩
    · rw [hh] at g1
      refine ⟨?_, ?_⟩
      · intro e'; injection e' with e'; exact g1 (by rw [e'])
      · rintro ⟨⟩
    · rw [hh] at g2
      have h2 := g2 r rfl
      simp only at h2 ⊢
      obtain ⟨i, q, a, h1, h2', h3⟩ := h2.own.get (x := t) (by simpa [CxxState.mk', Ne.symm hzt] using ht1)
      rw [Cxx.dtor_eq h1 h2' h3]
      exact ⟨by simp, fun _ => h2.kill h1 h2' h3⟩
  | dUnary u z x =>
    obtain ⟨i, q, a, h1, h2, h3⟩ := h.own.get hv.2
    simp only [CxxCmd.exec]
    rw [Cxx.unary_eq h1 h2 h3]
    exact h.construct hv.1 fun hs hsim => .unary hsim.reach (hsim.vars _ _ h3)
  | dBinary f z x y =>
    obtain ⟨hz, hx, hy⟩ := hv
    obtain ⟨i, q, a, h1, h2, h3⟩ := h.own.get hx
    obtain ⟨j, r, b, k1, k2, k3⟩ := h.own.get hy
    simp only [CxxCmd.exec]
    rw [Cxx.binary_eq h1 h2 h3 k1 k2 k3]
    exact h.construct hz fun hs hsim => .binary hsim.reach (hsim.vars _ _ h3) (hsim.vars _ _ k3)
  | cNew k =>
    obtain ⟨x, w, e, e'⟩ := Cxx.ctxCtor_eq (k := k) hv.2
    exact key e' (h.mkCtx hv.1 hv.2 e)
  | cMove k l =>
    obtain ⟨hk, hl⟩ := hv
    rcases hp : s.ctxs l with _ | p
    · exact absurd hp hl
    have hkl : k ≠ l := by rintro rfl; rw [hk] at hp; cases hp
    refine key (m := Cxx.ctxCtorMove k l) (s' := s.moveCtx k l p) ?_ (h.moveCtx hkl (by simp [hk]) hp)
    simp only [Cxx.ctxCtorMove]
    rw [M.bind_ok (Cxx.cImpl_ok hp)]
    rfl
  | cAssignMove k l =>
    obtain ⟨hk, hl⟩ := hv
    rcases hp : s.ctxs l with _ | p
    · exact absurd hp hl
    rcases hp' : s.ctxs k with _ | _ | i
    · exact absurd hp' hk
    · by_cases hkl : k = l
      · subst hkl
        rw [hp'] at hp
        injection hp with hp
        subst hp
        refine key (m := Cxx.ctxAssignMove k k) (Cxx.ctxAssignMove_null hp' hp') ?_
        have : s.moveCtx k k none = s.setCtx k (some none) := by
          simp only [CxxState.moveCtx, CxxState.setCtx, CxxState.mk.injEq, true_and]
          funext y; grind
        rw [this]
        exact h.setCtx (by simp [hp']) (.inr rfl)
      · exact key (m := Cxx.ctxAssignMove k l) (Cxx.ctxAssignMove_null hp' hp) (h.moveCtx hkl (by simp [hp']) hp)
    · obtain ⟨q, c, h1, h2⟩ := h.own.getCtx hp'
      by_cases hkl : k = l
      · subst hkl
        exact key (m := Cxx.ctxAssignMove k k) (Cxx.ctxAssignMove_self h hp' h1 h2) (h.killCtx hp' h1 h2 (.inr rfl))
      · exact key (m := Cxx.ctxAssignMove k l) (Cxx.ctxAssignMove_eq h hp' hp h1 h2)
          ((h.killCtx hp' h1 h2 (.inr rfl)).moveCtx hkl (by simp [CxxState.killCtx])
            (by simp [CxxState.killCtx, Ne.symm hkl, hp]))
  | cDestroy k =>
    rcases hp' : s.ctxs k with _ | _ | i
    · exact absurd hp' hv
    · exact key (m := Cxx.ctxDtor k) (Cxx.ctxDtor_null hp') (h.setCtx (by simp [hp']) (.inl rfl))
    · obtain ⟨q, c, h1, h2⟩ := h.own.getCtx hp'
      exact key (m := Cxx.ctxDtor k) (Cxx.ctxDtor_eq h hp' h1 h2) (h.killCtx hp' h1 h2 (.inl rfl))
  | cIndep z k =>
    obtain ⟨hz, i, hk⟩ := hv
    obtain ⟨q, c, h1, h2⟩ := h.own.getCtx hk
    simp only [CxxCmd.exec]
    rw [Cxx.newIndependent_eq hk h1 h2]
    exact h.construct hz fun hs hsim => .newIndep hsim h2
  | cDep k x =>
    obtain ⟨⟨i, hk⟩, hx⟩ := hv
    obtain ⟨q, c, h1, h2⟩ := h.own.getCtx hk
    obtain ⟨j, r, a, k1, k2, k3⟩ := h.own.get hx
    simp only [CxxCmd.exec]
    rw [Cxx.setDependent_eq hk h1 h2 k1 k2 k3]
    obtain ⟨hs, hsim⟩ := h.hist
    have hc := (hsim.handles c).2 ⟨q, h2⟩
    have ha := hsim.vars r a k3
    have hst := HStep.setDep hc ha (r := (AContext.setDep ⟨c⟩ a hs.world).1) (w' := (AContext.setDep ⟨c⟩ a hs.world).2) rfl
    rw [hsim.world] at hst
    refine ⟨?_, fun _ => ⟨h.own.world _, h.cids, _, hsim.reach.trans (.tail (.refl _) hst), rfl, hsim.vars, hsim.nodup, hsim.handles⟩⟩
    obtain ⟨n, i', -, g⟩ := setDep_effect hsim.reach.inv hc ha
    rw [hsim.world] at g
    rcases g with ⟨-, e⟩ | ⟨-, j, -, -, -, e⟩ | ⟨-, -, e⟩ <;> rw [e] <;> simp

theorem CxxSteps.inv {s t : CxxState S} (hs : CxxInv s) (h : CxxSteps s t) : CxxInv t := by
  induction h with
  | refl => exact hs
  | tail _ h ih =>
    obtain ⟨cmd, hv, hself, e⟩ := h
    have := (ih.exec hv hself).2
    rw [e] at this
    exact this rfl

theorem CxxState.Reachable.inv {s : CxxState S} (h : s.Reachable) : CxxInv s := CxxSteps.inv .init h

end Adv
