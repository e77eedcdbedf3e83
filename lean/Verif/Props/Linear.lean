import Verif.Proof.Linear
import Verif.Spec.Reverse
import Verif.Proof.Relabel
import Verif.Props.Recording

/-!
# Linearity and adjointness: C08, C09, C10, C51
-/

set_option linter.unusedSectionVars false

namespace Adv.Props
open Adv
open scoped Adv

section field
variable {K : Type} [Field K] [LinearOrder K] [IsStrictOrderedRing K] [Flt K] [LawfulFlt K]

/-! ## C08 -/

/-- C08: on a recorded tape without abs operations `first_order_forward` is linear. -/
theorem C08_forward_linear {t : Tape K} (h : Recorded t) (hna : t.AbsFree) (c d : K) {dx dx' : List K}
    (hx : dx.length = t.numIndeps) (hx' : dx'.length = t.numIndeps) :
    ∃ dy dy', t.firstOrderForward dx = .ok dy ∧ t.firstOrderForward dx' = .ok dy' ∧
      t.firstOrderForward (lcomb c d dx dx') = .ok (lcomb c d dy dy') := by
  have hw := h.proper.wf
  have hx0 : dx.length = t.indeps.length := hx
  have hx0' : dx'.length = t.indeps.length := hx'
  refine ⟨_, _, Tape.firstOrderForward_eq hw (by omega), Tape.firstOrderForward_eq hw (by omega), ?_⟩
  rw [Tape.firstOrderForward_eq hw (by simp [lcomb]; omega)]
  have e : (fun _ : Nat => (Flt.zero : K)) = fun i => c * (fun _ : Nat => (Flt.zero : K)) i +
      d * (fun _ : Nat => (Flt.zero : K)) i := by
    funext i; simp [LawfulFlt.zero_eq]
  rw [e, scatterFn_comb (by omega), sweepF_comb hna, ← e]
  congr 1
  unfold lcomb
  rw [List.zipWith_map_left, List.zipWith_map_right, List.zipWith_self]

example : Recorded smoothTape ∧ smoothTape.AbsFree ∧ smoothTape.numIndeps = 2 :=
  ⟨smoothTape_recorded, smoothTape_absFree, by decide +kernel⟩

/-! ## C09 -/

/-- C09 for tapes whose dependents are pairwise distinct variables: the reverse sweep is the adjoint of the
forward sweep. The full claim has no such restriction and is false, see below. -/
theorem C09_reverse_is_adjoint_partial {t : Tape K} (h : Recorded t) (hna : t.AbsFree) (hnd : t.deps.Nodup)
    {dx ybar : List K} (hx : dx.length = t.numIndeps) (hy : ybar.length = t.numDeps) :
    ∃ dy xbar, t.firstOrderForward dx = .ok dy ∧ t.firstOrderReverse ybar = .ok xbar ∧
      dot ybar dy = dot xbar dx := by
  have hw := h.proper.wf
  exact ⟨_, _, Tape.firstOrderForward_eq hw (Nat.le_of_eq hx.symm),
    Tape.firstOrderReverse_eq hw hna (Nat.le_of_eq hy.symm), hw.adjoint hna hnd ybar dx⟩

example : smoothTape.deps.Nodup ∧ smoothTape.firstOrderForward [1, 10] = .ok [23, -10] ∧
    smoothTape.firstOrderReverse [2, 5] = .ok [6, -1] ∧ dot [2, 5] [23, -10] = dot [6, -1] [1, (10 : ℚ)] := by
  decide +kernel

/-- `x ↦ (x, x)` -/
def dupF : Func ℚ := Func.advFn 1 2 fun _ => .ret [.var 0, .var 0]

/-- The tape of `dupF` at 3. -/
def dupTape : Tape ℚ := ⟨[0], [0, 0], [], [3], true⟩

theorem dupTape_recorded : Recorded dupTape := Recorded.of_func Demo.hw0 (f := dupF) (x := [3]) (by decide +kernel)

/-- C09 is false if a variable is registered as dependent twice: `first_order_reverse` overwrites the seed
instead of adding it. Here `<(1,0), forward 1> = 1` but `<reverse (1,0), 1> = 0`. -/
theorem C09_duplicate_dependents_counterexample :
    ∃ (t : Tape ℚ) (dx ybar dy xbar : List ℚ), Recorded t ∧ t.AbsFree ∧ dx.length = t.numIndeps ∧
      ybar.length = t.numDeps ∧ t.firstOrderForward dx = .ok dy ∧ t.firstOrderReverse ybar = .ok xbar ∧
      dot ybar dy ≠ dot xbar dx :=
  ⟨dupTape, [1], [1, 0], [1, 1], [0], dupTape_recorded, by intro op hop; simp [dupTape] at hop,
    by decide +kernel, by decide +kernel, by decide +kernel, by decide +kernel, by decide +kernel⟩

end field

section generic
variable {S : Type} [Flt S]

/-! ## C10 -/

theorem numAbs_pos_iff (t : Tape S) : 0 < t.numAbs ↔ ¬ t.AbsFree := by
  unfold Tape.numAbs Tape.AbsFree
  rw [List.length_pos_iff_exists_mem]
  constructor
  · rintro ⟨op, hop⟩ h
    rw [List.mem_filter] at hop
    exact h op hop.1 (by simpa using hop.2)
  · intro h
    push Not at h
    obtain ⟨op, h1, h2⟩ := h
    exact ⟨op, List.mem_filter.mpr ⟨h1, by simpa using h2⟩⟩

/-- The last abs operation of a list. -/
theorem split_last_abs {ops : List Operation} (h : ∃ op ∈ ops, op.opcode = .Abs) :
    ∃ l op m, ops = l ++ op :: m ∧ op.opcode = .Abs ∧ ∀ o ∈ m, o.opcode ≠ .Abs := by
  induction ops with
  | nil => simp at h
  | cons a ops ih =>
    by_cases h' : ∃ op ∈ ops, op.opcode = .Abs
    · obtain ⟨l, op, m, h1, h2, h3⟩ := ih h'
      exact ⟨a :: l, op, m, by simp [h1], h2, h3⟩
    · obtain ⟨op, hop, ha⟩ := h
      have : op = a := by
        rcases List.mem_cons.mp hop with h | h
        · exact h
        · exact absurd ⟨op, h, ha⟩ h'
      subst this
      exact ⟨[], op, ops, rfl, ha, fun o ho hoa => h' ⟨o, ho, hoa⟩⟩

theorem reverse_abs_error {t : Tape S} (hw : t.WF) (ha : ¬ t.AbsFree) {ybar : List S}
    (hy : t.deps.length ≤ ybar.length) : t.firstOrderReverse ybar = .error .absInReverse := by
  obtain ⟨l, op, m, h1, h2, h3⟩ := split_last_abs (ops := t.ops) (by
    by_contra hc; push Not at hc; exact ha hc)
  obtain ⟨v1, e1, l1, -⟩ := scatter_fn (ids := t.deps) (xs := ybar)
    (buf := List.replicate t.vals.length Flt.zero) (by simpa using hw.deps_lt) hy
  obtain ⟨v2, e2, l2, -⟩ := sweepR_fn_aux (ops := m.reverse) (v := t.vals) (vbar := v1)
    (fun o ho => hw.inB o (by rw [h1]; simp at ho; simp [ho])) (fun o ho => h3 o (by simpa using ho))
    (by simpa using l1)
  have e3 : op.firstOrderReverse t.vals v2 = .error .absInReverse := by
    simp [Operation.firstOrderReverse, h2]
  simp only [Tape.firstOrderReverse, e1, bind_ok_eq]
  rw [h1, List.reverse_append, List.reverse_cons, List.append_assoc, List.foldlM_append, e2, bind_ok_eq]
  simp only [List.singleton_append, List.foldlM_cons, e3]
  rfl

/-- C10: on a recorded tape, with a long enough `ybar`, `first_order_reverse` panics if and only if the tape
contains an abs operation. -/
theorem C10_reverse_panics_iff_abs {t : Tape S} (h : Recorded t) {ybar : List S}
    (hy : t.numDeps ≤ ybar.length) :
    (0 < t.numAbs → t.firstOrderReverse ybar = .error .absInReverse) ∧
    (t.numAbs = 0 → ∃ xbar, t.firstOrderReverse ybar = .ok xbar ∧ xbar.length = t.numIndeps) := by
  have hw := h.proper.wf
  constructor
  · intro ha; exact reverse_abs_error hw ((numAbs_pos_iff t).mp ha) hy
  · intro ha
    have hna : t.AbsFree := by
      by_contra hc; rw [← numAbs_pos_iff] at hc; omega
    exact ⟨_, Tape.firstOrderReverse_eq hw hna hy, by simp [Tape.numIndeps]⟩

example : Recorded demoTape ∧ demoTape.numAbs = 1 ∧
    demoTape.firstOrderReverse [1, 1] = .error .absInReverse ∧ smoothTape.numAbs = 0 :=
  ⟨demoTape_recorded, by decide +kernel, by decide +kernel, by decide +kernel⟩

/-! ## C51 -/

/-- Equal outside the constants. -/
def AgreeOff (C : List Nat) (l l' : List S) : Prop :=
  l.length = l'.length ∧ ∀ i, i ∉ C → fn l i = fn l' i

theorem stepR_agree {C : List Nat} {v : Nat → S} {op : Operation}
    (hv : op.opcode.computes = true → op.vid ∉ C) {f g : Nat → S} (h : ∀ i, i ∉ C → f i = g i) :
    ∀ i, i ∉ C → stepR v op f i = stepR v op g i := by
  have hu : ∀ (f g : Nat → S) (k : Nat) (F : S → S), (∀ i, i ∉ C → f i = g i) →
      ∀ i, i ∉ C → upd f k (F (f k)) i = upd g k (F (g k)) i := by
    intro f g k F h i hi
    by_cases hk : i = k
    · subst hk; rw [upd_same, upd_same, h i hi]
    · rw [upd_ne hk, upd_ne hk, h i hi]
  intro i hi
  unfold stepR
  by_cases hb : op.opcode.isBinary = true
  · have hvid := hv (OpCode.isBinary_computes hb)
    simp only [hb, if_true]
    rw [h _ hvid]
    have h1 := hu f g op.a1 (fun x => x +ᶠ rfun1 op.opcode (v op.a1) (v op.a2) (g op.vid)) h
    rw [h1 _ hvid]
    exact hu _ _ op.a2 (fun x => x +ᶠ rfun2 op.opcode (v op.a1) (v op.a2)
      (upd g op.a1 (g op.a1 +ᶠ rfun1 op.opcode (v op.a1) (v op.a2) (g op.vid)) op.vid)) h1 i hi
  · by_cases hun : op.opcode.isUnary = true
    · have hvid := hv (OpCode.isUnary_computes hun)
      simp only [hb, hun, if_true]
      rw [h _ hvid]
      exact hu f g op.a1 (fun x => x +ᶠ rfun1 op.opcode (v op.a1) (v op.a2) (g op.vid)) h i hi
    · simp only [hb, hun]; exact h i hi

theorem reverse_agree {C : List Nat} {v l l' : List S} {op : Operation} (hin : op.InB v.length)
    (hv : op.opcode.computes = true → op.vid ∉ C) (hl : l.length = v.length) (h : AgreeOff C l l') :
    ResRel (fun x y => x.length = v.length ∧ AgreeOff C x y) (op.firstOrderReverse v l)
      (op.firstOrderReverse v l') := by
  by_cases ha : op.opcode = .Abs
  · simp only [Operation.firstOrderReverse, ha]; exact .error _
  · obtain ⟨x, e1, l1, f1⟩ := Operation.firstOrderReverse_fn hin hl ha
    obtain ⟨y, e2, l2, f2⟩ := Operation.firstOrderReverse_fn hin (h.1 ▸ hl) ha
    rw [e1, e2]
    exact .ok ⟨l1, by omega, by rw [f1, f2]; exact stepR_agree hv h.2⟩

theorem noise_agree {t : Tape S} {noise : Nat → List S → List S} (hn : ConstNoise t noise) (k : Nat)
    (l : List S) : AgreeOff t.constIds (noise k l) l :=
  ⟨hn.length k l, fun i hi => by unfold fn; rw [hn.only k l i hi]⟩

theorem noisyLoop_agree {t : Tape S} {noise : Nat → List S → List S} (hn : ConstNoise t noise)
    {ops : List Operation} (hin : ∀ op ∈ ops, op.InB t.vals.length)
    (hv : ∀ op ∈ ops, op.opcode.computes = true → op.vid ∉ t.constIds) {k : Nat} {l l' : List S}
    (hl : l.length = t.vals.length) (h : AgreeOff t.constIds l l') :
    ResRel (fun x y => x.length = t.vals.length ∧ AgreeOff t.constIds x y)
      (Tape.noisyLoop noise t.vals k ops l)
      (ops.foldlM (fun vbar op => op.firstOrderReverse t.vals vbar) l') := by
  induction ops generalizing k l l' with
  | nil =>
    have := noise_agree hn k l
    exact .ok ⟨by rw [hn.length, hl], this.1.trans h.1, fun i hi => (this.2 i hi).trans (h.2 i hi)⟩
  | cons op ops ih =>
    have hk := noise_agree hn k l
    have h1 := reverse_agree (C := t.constIds) (v := t.vals) (op := op) (l := noise k l) (l' := l')
      (hin op (by simp)) (hv op (by simp)) (by rw [hn.length, hl])
      ⟨hk.1.trans h.1, fun i hi => (hk.2 i hi).trans (h.2 i hi)⟩
    simp only [Tape.noisyLoop, List.foldlM_cons]
    generalize op.firstOrderReverse t.vals (noise k l) = x at h1
    generalize op.firstOrderReverse t.vals l' = y at h1
    cases h1 with
    | error e => exact .error e
    | ok h1 => exact ih (fun o ho => hin o (by simp [ho])) (fun o ho => hv o (by simp [ho])) h1.1 h1.2

theorem constIds_disjoint {t : Tape S} (hw : t.WF) :
    (∀ op ∈ t.ops, op.opcode.computes = true → op.vid ∉ t.constIds) ∧ (∀ i ∈ t.indeps, i ∉ t.constIds) := by
  constructor
  · intro op hop hc hmem
    obtain ⟨o, ho, he⟩ := List.mem_map.mp hmem
    rw [List.mem_filter] at ho
    have hoc : o.opcode = .Const := by simpa using ho.2
    have h1 : op ∈ activeOps t.ops := mem_activeOps.mpr ⟨hop, ((OpCode.computes_iff _).mp hc).1⟩
    have h2 : o ∈ activeOps t.ops := mem_activeOps.mpr ⟨ho.1, by simp [hoc]⟩
    have hinj := hw.sorted.imp (fun {a b} (h : a < b) => Nat.ne_of_lt h)
    have : o = op := List.inj_on_of_nodup_map hinj h2 h1 he
    subst this
    simp [hoc, OpCode.computes, OpCode.isBinary, OpCode.isUnary] at hc
  · intro i hi hmem
    obtain ⟨o, ho, he⟩ := List.mem_map.mp hmem
    rw [List.mem_filter] at ho
    have hoc : o.opcode = .Const := by simpa using ho.2
    exact hw.vid_fresh o (mem_activeOps.mpr ⟨ho.1, by simp [hoc]⟩) (he ▸ hi)

/-- C51: whatever happens to the adjoints of constants during the sweep, the gradient (or the panic) is
the same, in every scalar arithmetic. -/
theorem C51_constant_adjoints_do_not_leak {t : Tape S} (h : Recorded t) {noise : Nat → List S → List S}
    (hn : ConstNoise t noise) (ybar : List S) : t.noisyReverse noise ybar = t.firstOrderReverse ybar := by
  have hw := h.proper.wf
  unfold Tape.noisyReverse Tape.firstOrderReverse
  by_cases hy : t.deps.length ≤ ybar.length
  · obtain ⟨v1, e1, l1, -⟩ := scatter_fn (ids := t.deps) (xs := ybar)
      (buf := List.replicate t.vals.length Flt.zero) (by simpa using hw.deps_lt) hy
    rw [List.length_replicate] at l1
    obtain ⟨d1, d2⟩ := constIds_disjoint hw
    have hr := noisyLoop_agree hn (ops := t.ops.reverse) (fun o ho => hw.inB o (by simpa using ho))
      (fun o ho => d1 o (by simpa using ho)) (k := 0) (l := v1) (l' := v1) l1 ⟨rfl, fun _ _ => rfl⟩
    simp only [e1, bind_ok_eq]
    generalize Tape.noisyLoop noise t.vals 0 t.ops.reverse v1 = x at hr
    generalize t.ops.reverse.foldlM (fun vbar op => op.firstOrderReverse t.vals vbar) v1 = y at hr
    cases hr with
    | error e => rfl
    | @ok x y hr =>
      simp only [bind_ok_eq]
      rw [mapM_getR_fn (fun i hi => by rw [hr.1]; exact hw.indeps_lt i hi),
        mapM_getR_fn (fun i hi => by rw [← hr.2.1, hr.1]; exact hw.indeps_lt i hi)]
      congr 1
      exact List.map_congr_left (fun i hi => hr.2.2 i (d2 i hi))
  · simp only [scatter_err (ids := t.deps) (xs := ybar) (buf := List.replicate t.vals.length Flt.zero)
      (by simpa using hw.deps_lt) (by omega)]
    rfl

/-- `x ↦ x.powf(c)` for a constant `c`. -/
def powF (c : S) : Func S := Func.advFn 1 1 fun _ => .op .Powf (.var 0) (some (.lit c)) fun i _ => .ret [.var i]

/-- C51: the gradient of a power with constant exponent does not involve the logarithm of the base, in
every scalar arithmetic and for every base. -/
theorem C51_constant_exponent_gradient (c x ybar : S) (w : World S) (hw : w.nextId < usizeMax) :
    ∃ t, ((powF c).tape [x] w).1 = .ok t ∧
      t.firstOrderReverse [ybar] = .ok [Flt.zero +ᶠ ybar *ᶠ c *ᶠ Flt.powf x (c -ᶠ Flt.one)] := by
  have hw0 : ((HState.init : HState S).world).nextId < usizeMax := by
    show 1 < usizeMax; decide
  rw [Func.tape_world (powF c) [x] hw hw0]
  exact ⟨_, rfl, rfl⟩

/-- With NaN: the adjoint of the exponent is NaN, the gradient is not. -/
example : ((powF (NQ.fin 2)).tape [NQ.fin (-3)] (HState.init : HState NQ).world).1.bind
    (fun t => t.firstOrderReverse [NQ.fin 1]) = .ok [NQ.fin (-6)] := by decide +kernel

/-- There is noise that really changes something: write 7 to the adjoint of the constant of the tape. -/
example : Recorded smoothTape ∧ smoothTape.constIds ≠ [] ∧
    ConstNoise smoothTape (fun _ l => smoothTape.constIds.foldl (fun l i => l.set i 7) l) := by
  refine ⟨smoothTape_recorded, by decide +kernel, ?_, ?_⟩
  · intro k l; simp [smoothTape, Tape.constIds]
  · intro k l i hi
    simp only [smoothTape, Tape.constIds] at hi ⊢
    simp at hi ⊢
    rw [List.getElem?_set]
    simp [Ne.symm hi]

end generic
end Adv.Props
