import Verif.Proof.Rounding
import Verif.Proof.TwoArith

/-!
# Evaluations in machine arithmetics

User code maps families of numbers `a + O(u)` to families of numbers `b + O(u)`; from some point on, its control flow
is that of the exact evaluation.
-/

set_option linter.unusedSectionVars false

namespace Adv
open scoped Adv Topology
open Filter Asymptotics

theorem Machine.nonneg {S : Type} {val : S → Option ℝ} {A : Flt S} {u : ℝ} (h : Machine val A u) : 0 ≤ u := by
  have := h.add h.one h.zero
  unfold ComputesM at this
  rw [add_zero, abs_one, one_mul] at this
  by_contra hu
  obtain ⟨z, -, hz⟩ := this (by linarith)
  have h1 := (abs_nonneg _).trans hz
  linarith

section mono
variable {S T : Type} {I : Flt S} {J : Flt T} {Q R : S → T → Prop} {X : OpCode → S → S → Option T → Prop} (hQR : ∀ s t, Q s t → R s t)
include hQR

theorem Arg.Rel2.mono {a : Arg S} {a' : Arg T} (h : a.Rel2 Q a') : a.Rel2 R a' := by
  cases h with
  | var k => exact .var k
  | lit h => exact .lit (hQR _ _ h)

theorem Prog.Along2.mono (p : Prog S) : ∀ {p' : Prog T} {env : List (S × S)} {env' : List (T × T)},
    p.Along2 I J Q X p' env env' → p.Along2 I J R X p' env env' := by
  induction p with
  | ret outs =>
    intro p' env env' h
    cases p' with
    | ret outs' => exact List.Forall₂.imp (fun _ _ h => h.mono hQR) h
    | panic => exact h.elim
    | op => exact h.elim
  | panic =>
    intro p' env env' h
    cases p' with
    | panic => trivial
    | ret => exact h.elim
    | op => exact h.elim
  | op o a b k ih =>
    intro p' env env' h
    cases p' with
    | panic => exact h.elim
    | ret => exact h.elim
    | op o' a' b' k' =>
      obtain ⟨h1, h2, h3, h⟩ := h
      refine ⟨h1, h2.mono hQR, ?_, fun x x' y y' h1 h2 h3 h4 h5 => ?_⟩
      · cases h3 with
        | none => exact .none
        | some h3 => exact .some (h3.mono hQR)
      · obtain ⟨r1, rX, r3⟩ := h x x' y y' h1 h2 h3 h4 h5
        exact ⟨⟨hQR _ _ r1.1, hQR _ _ r1.2⟩, rX, ih _ _ r3⟩

theorem along2Progs.mono : ∀ (ps : List (List S → Prog S)) {ps' : List (List T → Prog T)} {env : List (S × S)}
    {env' : List (T × T)}, along2Progs I J Q X ps ps' env env' → along2Progs I J R X ps ps' env env'
  | [], [], _, _, _ => trivial
  | [], _ :: _, _, _, h => h.elim
  | _ :: _, [], _, _, h => h.elim
  | _ :: ps, _ :: _, _, _, ⟨h2, h3⟩ => ⟨h2.mono hQR, fun y y' e e' => along2Progs.mono ps (h3 y y' e e')⟩

end mono

/-! ## Domains -/

/-- The domains of operations; powers have a positive base. -/
def Dom (o : OpCode) (a b : ℝ) : Prop :=
  match o with
  | .Div => b ≠ 0
  | .Tan => Real.cos a ≠ 0
  | .Ln | .Powf => 0 < a
  | .Asin | .Acos => -1 < a ∧ a < 1
  | _ => True

/-- Powers with an integer exponent. -/
def IntPow (o : OpCode) (a b : ℝ) : Prop := o = .Powf ∧ ∃ n : ℤ, b = n ∧ (a ≠ 0 ∨ 1 ≤ n)

/-- The operation is in its domain; integer exponents are exact. -/
def OpFact {S : Type} (val : S → Option ℝ) (o : OpCode) (a b : ℝ) : Option S → Prop
  | none => Dom o a b
  | some c => IntPow o a b ∧ val c = some b

theorem SmoothOp.fact {S : Type} {val : S → Option ℝ} {o : OpCode} {arg : Option (Arg ℝ)} {a b : ℝ}
    (h : SmoothOp o arg a (arg.map fun _ => b)) (hok : arityOk o arg = true) (hlit : ∀ c, arg = some (.lit c) → b = c) :
    OpFact val o a b none ∨ ∃ c, arg = some (.lit c) ∧ ∀ s, val s = some c → OpFact val o a c (some s) := by
  cases o <;> cases arg <;> simp only [arityOk, OpCode.isUnary, OpCode.isBinary, Bool.false_eq_true] at hok
  case Powf.some arg =>
    rcases h with h | ⟨n, hn, h⟩
    · exact .inl h
    · exact .inr ⟨n, hn, fun s hs => ⟨⟨rfl, n, rfl, h⟩, hs⟩⟩
  case Div.some arg =>
    left
    intro e
    apply h
    rw [e]; rfl
  all_goals exact .inl h

/-! ## Components of programs -/

section parts
variable {S : Type} {val : S → Option ℝ}

/-- The number of a literal. -/
def Arg.num (B : Flt S) : Arg S → S
  | .lit s => s
  | .var _ => B.zero

/-- The outputs of a program that returns. -/
def Prog.outs : Prog S → List (Arg S)
  | .ret outs => outs
  | _ => []

/-- The first operand. -/
def Prog.arg1 : Prog S → Arg S
  | .op _ a _ _ => a
  | _ => .var 0

/-- The second operand. -/
def Prog.arg2 : Prog S → Option (Arg S)
  | .op _ _ b _ => b
  | _ => none

/-- What happens after the first operation. -/
def Prog.next : Prog S → ℕ → S → Prog S
  | .op _ _ _ k => k
  | _ => fun _ _ => .panic

theorem Prog.Same.ret_inv {outs : List (Arg ℝ)} {p : Prog S} (h : Prog.Same val (.ret outs) p) :
    p = .ret p.outs ∧ List.Forall₂ (Arg.Same val) outs p.outs := by
  cases h with
  | ret h => exact ⟨rfl, h⟩

theorem Prog.Same.panic_inv {p : Prog S} (h : Prog.Same val .panic p) : p = .panic := by
  cases h; rfl

theorem Prog.Same.op_inv {o : OpCode} {a : Arg ℝ} {b : Option (Arg ℝ)} {k : ℕ → ℝ → Prog ℝ} {p : Prog S}
    (h : Prog.Same val (.op o a b k) p) : p = .op o p.arg1 p.arg2 p.next ∧ a.Same val p.arg1 ∧
      Option.Rel (Arg.Same val) b p.arg2 ∧ ∀ n v s, val s = some v → (k n v).Same val (p.next n s) := by
  cases h with
  | op o ha hb hk => exact ⟨rfl, ha, hb, hk⟩

theorem Arg.Same.rel2 {δ : ℝ} (h0 : 0 ≤ δ) {a : Arg ℝ} {a' : Arg S} (h : a.Same val a') : a.Rel2 (WithinM val δ) a' := by
  cases h with
  | var k => exact .var k
  | lit h => exact .lit ⟨_, h, by rw [sub_self, abs_zero]; exact h0⟩

theorem Arg.Same.rel2_opt {δ : ℝ} (h0 : 0 ≤ δ) {b : Option (Arg ℝ)} {b' : Option (Arg S)}
    (h : Option.Rel (Arg.Same val) b b') : Option.Rel (Arg.Rel2 (WithinM val δ)) b b' := by
  cases h with
  | none => exact .none
  | some h => exact .some (h.rel2 h0)

theorem WithinM.mono {δ ε x : ℝ} {s : S} (hle : δ ≤ ε) (h : WithinM val δ x s) : WithinM val ε x s := by
  obtain ⟨r, h1, h2⟩ := h
  exact ⟨r, h1, h2.trans hle⟩

end parts

variable {ι : Type*} {l : Filter ι} {S : ι → Type} {val : ∀ i, S i → Option ℝ} {A : ∀ i, Flt (S i)} {u : ι → ℝ}

/-- The exact arithmetic. -/
noncomputable abbrev exactFlt : Flt ℝ := inferInstance

/-- An exact value with its derivative, and a family of computed ones. -/
abbrev Fam (S : ι → Type) := (ℝ × ℝ) × (∀ i, S i × S i)

/-- The family is close to the exact numbers. -/
def Fam.Near (l : Filter ι) (val : ∀ i, S i → Option ℝ) (u : ι → ℝ) (q : Fam S) : Prop :=
  Adv.Near l val u q.1.1 (fun i => (q.2 i).1) ∧ Adv.Near l val u q.1.2 fun i => (q.2 i).2

/-- Exact variable. -/
noncomputable def Fam.pt (q : Fam S) : AFloat ℝ := AFloat.new q.1.1 q.1.2

/-- Operands of families. -/
noncomputable def famArg (A : ∀ i, Flt (S i)) (G : List (Fam S)) (a' : ∀ i, Arg (S i)) : Arg ℝ → Option (Fam S)
  | .var k => G[k]?
  | .lit c => some ((c, 0), fun i => ((a' i).num (A i), (A i).zero))

theorem famArg_exact (G : List (Fam S)) (a' : ∀ i, Arg (S i)) (a : Arg ℝ) :
    a.getS dualSh (G.map Prod.fst) = match famArg A G a' a with
      | some q => .ok q.1
      | none => .error .unbound := by
  cases a with
  | var k => simp only [Arg.getS, famArg, List.getElem?_map]; cases G[k]? <;> rfl
  | lit c => rfl

theorem famArg_get (G : List (Fam S)) (a' : ∀ i, Arg (S i)) (a : Arg ℝ) :
    a.get (G.map Fam.pt) = match famArg A G a' a with
      | some q => .ok q.pt
      | none => .error .unbound := by
  cases a with
  | var k => simp only [Arg.get, famArg, List.getElem?_map]; cases G[k]? <;> rfl
  | lit c => rfl

theorem famArg_at (G : List (Fam S)) {a' : ∀ i, Arg (S i)} {a : Arg ℝ} {i : ι} (h : a.Same (val i) (a' i)) :
    @Arg.getS (S i) (S i) (@dualSh (S i) (A i)) (G.map fun q => q.2 i) (a' i) = match famArg A G a' a with
      | some q => .ok (q.2 i)
      | none => .error .unbound := by
  cases a with
  | var k =>
    have e : a' i = .var k := by generalize a' i = z at h; cases h; rfl
    rw [e]
    simp only [Arg.getS, famArg, List.getElem?_map]; cases G[k]? <;> rfl
  | lit c =>
    have e : ∃ s, a' i = .lit s := by generalize a' i = z at h; cases h; exact ⟨_, rfl⟩
    obtain ⟨s, e⟩ := e
    simp only [famArg, e]
    rfl

/-- Result of an operation on families. -/
noncomputable def famOp (A : ∀ i, Flt (S i)) (o : OpCode) (x : Fam S) (y : Option (Fam S)) : Fam S :=
  (opD exactFlt o x.1 (y.map Prod.fst), fun i => opD (A i) o (x.2 i) (y.map fun q => q.2 i))

theorem NearR.bound (h0 : ∀ i, 0 ≤ u i) {a : ℝ} {g : ι → ℝ} (h : NearR l u a g) :
    ∃ K, 0 ≤ K ∧ ∀ᶠ i in l, |a - g i| ≤ K * u i := by
  obtain ⟨K, hK, hb⟩ := IsBigO.exists_nonneg h
  refine ⟨K, hK, ?_⟩
  filter_upwards [hb.bound] with i hi
  rw [abs_sub_comm]
  rwa [Real.norm_eq_abs, Real.norm_of_nonneg (h0 i)] at hi

theorem Near.bound (h0 : ∀ i, 0 ≤ u i) {a : ℝ} {g : ∀ i, S i} (h : Near l val u a g) :
    ∃ K, 0 ≤ K ∧ ∀ᶠ i in l, WithinM (val i) (K * u i) a (g i) := by
  obtain ⟨r, h1, h2⟩ := h
  obtain ⟨K, hK, hb⟩ := h1.bound h0
  refine ⟨K, hK, ?_⟩
  filter_upwards [hb, h2] with i k1 k2
  exact ⟨r i, k2, k1⟩

theorem Fam.Near.bound (h0 : ∀ i, 0 ≤ u i) {q : Fam S} (h : q.Near l val u) :
    ∃ K, 0 ≤ K ∧ ∀ᶠ i in l, RelP (WithinM (val i) (K * u i)) q.1 (q.2 i) := by
  obtain ⟨K1, k1, h1⟩ := h.1.bound h0
  obtain ⟨K2, k2, h2⟩ := h.2.bound h0
  refine ⟨max K1 K2, le_max_of_le_left k1, ?_⟩
  filter_upwards [h1, h2] with i a b
  exact ⟨a.mono (mul_le_mul_of_nonneg_right (le_max_left _ _) (h0 i)),
    b.mono (mul_le_mul_of_nonneg_right (le_max_right _ _) (h0 i))⟩

namespace Ariths
variable (F : Ariths l val A u)
include F

theorem famArg_near {G : List (Fam S)} (hG : ∀ q ∈ G, q.Near l val u) {a : Arg ℝ} {a' : ∀ i, Arg (S i)}
    (ha : ∀ᶠ i in l, a.Same (val i) (a' i)) {q : Fam S} (h : famArg A G a' a = some q) : q.Near l val u := by
  cases a with
  | var k => exact hG q (List.mem_of_getElem? h)
  | lit c =>
    injection h with h; subst h
    refine ⟨.const ?_, F.near_zero⟩
    filter_upwards [ha] with i hi
    show val i ((a' i).num (A i)) = some c
    generalize a' i = z at hi
    cases hi with
    | lit h => exact h

theorem famOp_near {G : List (Fam S)} (hG : ∀ q ∈ G, q.Near l val u) {o : OpCode} {a : Arg ℝ} {b : Option (Arg ℝ)}
    {a' b' : ∀ i, Arg (S i)} (ha : ∀ᶠ i in l, a.Same (val i) (a' i))
    (hb' : ∀ c, b = some c → ∀ᶠ i in l, c.Same (val i) (b' i))
    {x : Fam S} {y : Option (Fam S)} (hx : famArg A G a' a = some x)
    (hy : ∀ c, b = some c → ∃ q, y = some q ∧ famArg A G b' c = some q) (hb : b = none → y = none)
    (ho : arityOk o b = true) (hs : SmoothOp o b x.1.1 (y.map fun q => q.1.1)) : (famOp A o x y).Near l val u := by
  have nx := F.famArg_near hG ha hx
  cases b with
  | none =>
    cases hb rfl
    exact ⟨F.zfun (arg := none) ho nx.1 nx.1 hs (by simp), F.ffun (arg := none) ho nx.1 nx.1 nx.2 nx.2 hs (by simp)⟩
  | some b =>
    obtain ⟨q, rfl, hq⟩ := hy b rfl
    have nq := F.famArg_near hG (hb' b rfl) hq
    have hlit : ∀ c, some b = some (Arg.lit c) → q.1 = (c, 0) ∧
        ∀ᶠ i in l, val i (q.2 i).1 = some c ∧ val i (q.2 i).2 = some 0 := by
      intro c hc; injection hc with hc; subst hc; injection hq with hq; subst hq
      refine ⟨rfl, ?_⟩
      filter_upwards [hb' _ rfl] with i hi
      refine ⟨?_, (F.machine i).zero⟩
      show val i ((b' i).num (A i)) = some c
      generalize b' i = z at hi
      cases hi with
      | lit h => exact h
    refine ⟨F.zfun (arg := some b) ho nx.1 nq.1 hs ?_, F.ffun (arg := some b) ho nx.1 nq.1 nx.2 nq.2 hs ?_⟩
    · intro c hc
      obtain ⟨e, h⟩ := hlit c hc
      exact ⟨congrArg Prod.fst e, h.mono fun _ h => h.1⟩
    · intro c hc
      obtain ⟨e, h⟩ := hlit c hc
      exact ⟨congrArg Prod.fst e, congrArg Prod.snd e, h⟩

theorem outs_near {G : List (Fam S)} (hG : ∀ q ∈ G, q.Near l val u) : ∀ (outs : List (Arg ℝ))
    (outs' : ∀ i, List (Arg (S i))), (∀ᶠ i in l, List.Forall₂ (Arg.Same (val i)) outs (outs' i)) → ∀ y : List (ℝ × ℝ),
    outs.mapM (Arg.getS dualSh (G.map Prod.fst)) = .ok y →
    ∃ Y : List (Fam S), (∀ q ∈ Y, q.Near l val u) ∧ Y.map Prod.fst = y ∧
      ∀ᶠ i in l, (outs' i).mapM (@Arg.getS (S i) (S i) (@dualSh (S i) (A i)) (G.map fun q => q.2 i)) =
        .ok (Y.map fun q => q.2 i)
  | [], outs', ho, y, h => by
      refine ⟨[], by simp, by injection h, ?_⟩
      filter_upwards [ho] with i hi
      rw [List.forall₂_nil_left_iff] at hi
      rw [hi]; rfl
  | o :: outs, outs', ho, y, h => by
      have hcons : ∀ᶠ i in l, outs' i = (outs' i).headD (.var 0) :: (outs' i).tail ∧
          o.Same (val i) ((outs' i).headD (.var 0)) ∧ List.Forall₂ (Arg.Same (val i)) outs (outs' i).tail := by
        filter_upwards [ho] with i hi
        generalize outs' i = z at hi
        cases hi with
        | cons h1 h2 => exact ⟨rfl, h1, h2⟩
      rw [List.mapM_cons, famArg_exact (A := A) G (fun i => (outs' i).headD (.var 0))] at h
      rcases hq : famArg A G (fun i => (outs' i).headD (.var 0)) o with _ | q
      · rw [hq] at h; cases h
      rw [hq] at h
      simp only [bind_ok_eq] at h
      rcases hr : outs.mapM (Arg.getS dualSh (G.map Prod.fst)) with e | y'
      · rw [hr] at h; cases h
      rw [hr] at h
      simp only [bind_ok_eq] at h
      injection h with h
      obtain ⟨Y, h1, h2, h3⟩ := outs_near hG outs (fun i => (outs' i).tail) (hcons.mono fun _ h => h.2.2) y' hr
      refine ⟨q :: Y, ?_, ?_, ?_⟩
      · intro q' hq'
        rcases List.mem_cons.mp hq' with rfl | hq'
        · exact F.famArg_near hG (hcons.mono fun _ h => h.2.1) hq
        · exact h1 q' hq'
      · rw [List.map_cons, h2, h]
      · filter_upwards [hcons, h3] with i ⟨k1, k2, k3⟩ k4
        rw [k1, List.mapM_cons]
        have := famArg_at (A := A) G (a' := fun i => (outs' i).headD (.var 0)) k2
        rw [this, hq]
        simp only [bind_ok_eq, k4]
        rfl

/-- User code in machine arithmetics. -/
theorem prog (w : World ℝ) (p : Prog ℝ) : ∀ (P : ∀ i, Prog (S i)), (∀ᶠ i in l, p.Same (val i) (P i)) →
    ∀ (G : List (Fam S)), (∀ q ∈ G, q.Near l val u) → p.Along piecewiseSmooth w (G.map Fam.pt) →
    (∃ K, 0 ≤ K ∧ ∀ᶠ i in l, p.Along2 exactFlt (A i) (WithinM (val i) (K * u i)) (OpFact (val i)) (P i) (G.map Prod.fst)
      (G.map fun q => q.2 i)) ∧
    ∀ y, p.runS dualSh (G.map Prod.fst) = .ok y → ∃ Y : List (Fam S), (∀ q ∈ Y, q.Near l val u) ∧ Y.map Prod.fst = y ∧
      ∀ᶠ i in l, @Prog.runS (S i) (A i) (S i) (@dualSh (S i) (A i)) (P i) (G.map fun q => q.2 i) =
        .ok (Y.map fun q => q.2 i) := by
  have h0 : ∀ i, 0 ≤ u i := fun i => (F.machine i).nonneg
  have hz : ∀ i, 0 ≤ 0 * u i := fun i => by rw [zero_mul]
  induction p with
  | panic =>
    intro P hP G hG hal
    refine ⟨⟨0, le_refl _, ?_⟩, fun y h => by cases h⟩
    filter_upwards [hP] with i hi
    rw [hi.panic_inv]
    trivial
  | ret outs =>
    intro P hP G hG hal
    refine ⟨⟨0, le_refl _, ?_⟩, fun y h => ?_⟩
    · filter_upwards [hP] with i hi
      rw [hi.ret_inv.1]
      exact hi.ret_inv.2.imp fun _ _ h => h.rel2 (hz i)
    · obtain ⟨Y, h1, h2, h3⟩ := F.outs_near hG outs (fun i => (P i).outs) (hP.mono fun i hi => hi.ret_inv.2) y h
      refine ⟨Y, h1, h2, ?_⟩
      filter_upwards [hP, h3] with i hi h
      rw [hi.ret_inv.1]
      exact h
  | op o a b k ih =>
    intro P hP G hG hal
    have hP' := hP.mono fun i hi => hi.op_inv
    let a' : ∀ i, Arg (S i) := fun i => (P i).arg1
    let b' : ∀ i, Arg (S i) := fun i => (P i).arg2.getD (.var 0)
    have hsa : ∀ᶠ i in l, a.Same (val i) (a' i) := hP'.mono fun i hi => hi.2.1
    have hsb : ∀ c, b = some c → ∀ᶠ i in l, (P i).arg2 = some (b' i) ∧ c.Same (val i) (b' i) := by
      rintro c rfl
      filter_upwards [hP'] with i hi
      have h := hi.2.2.1
      show (P i).arg2 = some ((P i).arg2.getD (.var 0)) ∧ c.Same (val i) ((P i).arg2.getD (.var 0))
      generalize (P i).arg2 = z at h
      cases h with
      | some h => exact ⟨rfl, h⟩
    have hsn : b = none → ∀ᶠ i in l, (P i).arg2 = none := by
      rintro rfl
      filter_upwards [hP'] with i hi
      have h := hi.2.2.1
      generalize (P i).arg2 = z at h
      cases h with
      | none => rfl
    rcases ha : famArg A G a' a with _ | x
    · refine ⟨⟨0, le_refl _, ?_⟩, fun y h => ?_⟩
      · filter_upwards [hP'] with i hi
        rw [hi.1]
        refine ⟨rfl, hi.2.1.rel2 (hz i), Arg.Same.rel2_opt (hz i) hi.2.2.1, fun x x' y y' h1 => ?_⟩
        rw [famArg_exact (A := A) G a', ha] at h1; cases h1
      · rw [Prog.runS, famArg_exact (A := A) G a', ha] at h; cases h
    have hb : (∃ y : Option (Fam S), (∀ c, b = some c → ∃ q, y = some q ∧ famArg A G b' c = some q) ∧ (b = none → y = none)) ∨
        ∃ c, b = some c ∧ famArg A G b' c = none := by
      cases b with
      | none => exact .inl ⟨none, by simp, fun _ => rfl⟩
      | some b =>
        rcases hb : famArg A G b' b with _ | q
        · exact .inr ⟨b, rfl, hb⟩
        · exact .inl ⟨some q, by rintro _ ⟨⟩; exact ⟨q, rfl, hb⟩, by simp⟩
    rcases hb with ⟨y, hy1, hy2⟩ | ⟨c, rfl, hb⟩
    swap
    · have e : Arg.getSOpt dualSh (G.map Prod.fst) (some c) = .error .unbound := by
        simp only [Arg.getSOpt, famArg_exact (A := A) G b', hb]; rfl
      refine ⟨⟨0, le_refl _, ?_⟩, fun y h => ?_⟩
      · filter_upwards [hP'] with i hi
        rw [hi.1]
        refine ⟨rfl, hi.2.1.rel2 (hz i), Arg.Same.rel2_opt (hz i) hi.2.2.1, fun x x' y y' h1 h2 h3 => ?_⟩
        rw [e] at h3; cases h3
      · rw [Prog.runS, famArg_exact (A := A) G a', ha] at h
        simp only [bind_ok_eq, e] at h; cases h
    have ea : a.getS dualSh (G.map Prod.fst) = .ok x.1 := by rw [famArg_exact (A := A) G a', ha]
    have ea' : ∀ᶠ i in l, @Arg.getS (S i) (S i) (@dualSh (S i) (A i)) (G.map fun q => q.2 i) (P i).arg1 = .ok (x.2 i) := by
      filter_upwards [hsa] with i hi
      have := famArg_at (A := A) G (a' := a') hi
      rw [ha] at this
      exact this
    have eg : a.get (G.map Fam.pt) = .ok x.pt := by rw [famArg_get (A := A) G a', ha]
    have eb : Arg.getSOpt dualSh (G.map Prod.fst) b = .ok (y.map Prod.fst) := by
      cases b with
      | none => cases hy2 rfl; rfl
      | some b => obtain ⟨q, rfl, hq⟩ := hy1 b rfl; simp only [Arg.getSOpt, famArg_exact (A := A) G b', hq]; rfl
    have eb' : ∀ᶠ i in l, @Arg.getSOpt (S i) (S i) (@dualSh (S i) (A i)) (G.map fun q => q.2 i) (P i).arg2 =
        .ok (y.map fun q => q.2 i) := by
      cases b with
      | none =>
        cases hy2 rfl
        filter_upwards [hsn rfl] with i hi
        rw [hi]; rfl
      | some b =>
        obtain ⟨q, rfl, hq⟩ := hy1 b rfl
        filter_upwards [hsb b rfl] with i hi
        rw [hi.1]
        have := famArg_at (A := A) G (a' := b') hi.2
        simp only [Arg.getSOpt, this, hq]; rfl
    have ebg : Arg.getOpt (G.map Fam.pt) b = .ok (y.map Fam.pt) := by
      cases b with
      | none => cases hy2 rfl; rfl
      | some b => obtain ⟨q, rfl, hq⟩ := hy1 b rfl; simp only [Arg.getOpt, famArg_get (A := A) G b', hq]; rfl
    have eo1 : arityOk o (y.map Prod.fst) = arityOk o b := by
      cases b with
      | none => cases hy2 rfl; rfl
      | some b => obtain ⟨q, rfl, hq⟩ := hy1 b rfl; rfl
    have eo2 : ∀ i, arityOk o (y.map fun q => q.2 i) = arityOk o b := by
      intro i
      cases b with
      | none => cases hy2 rfl; rfl
      | some b => obtain ⟨q, rfl, hq⟩ := hy1 b rfl; rfl
    have eo3 : arityOk o (y.map Fam.pt) = arityOk o b := by
      cases b with
      | none => cases hy2 rfl; rfl
      | some b => obtain ⟨q, rfl, hq⟩ := hy1 b rfl; rfl
    by_cases hok : arityOk o b = true
    swap
    · refine ⟨⟨0, le_refl _, ?_⟩, fun y h => ?_⟩
      · filter_upwards [hP'] with i hi
        rw [hi.1]
        refine ⟨rfl, hi.2.1.rel2 (hz i), Arg.Same.rel2_opt (hz i) hi.2.2.1, fun x x' y y' h1 h2 h3 h4 h5 => ?_⟩
        rw [eb] at h3; injection h3 with h3; subst h3; exact absurd (eo1.symm.trans h5) hok
      · rw [Prog.runS, ea] at h
        simp only [bind_ok_eq, eb, eo1, hok] at h; cases h
    have hcb : ∀ c, y.map Fam.pt = some c → c.ctx = none := by
      intro c hc; cases y with
      | none => cases hc
      | some q => injection hc with hc; subst hc; rfl
    have hfr := fromOp_free (o := o) (a := x.pt) (b := y.map Fam.pt) w (eo3.trans hok) rfl hcb
    obtain ⟨l1, ⟨ε, he, l2⟩, l3⟩ := hal _ _ _ eg ebg (eo3.trans hok) (by rw [hfr])
    have hsm : SmoothOp o b x.1.1 (y.map fun q => q.1.1) := by
      have : (y.map Fam.pt).map AFloat.v = y.map fun q => q.1.1 := by cases y <;> rfl
      unfold piecewiseSmooth at l1
      rw [this] at l1
      exact l1
    have hq : (famOp A o x y).Near l val u :=
      F.famOp_near hG hsa (fun c hc => (hsb c hc).mono fun _ h => h.2) ha hy1 hy2 hok hsm
    have hfact : ∀ i, (∀ c, b = some (.lit c) → ∃ s, (P i).arg2 = some (.lit s) ∧ val i s = some c) →
        OpFact (val i) o x.1.1 ((y.map Prod.fst).getD x.1).1 none ∨
        ∃ c c', b = some (.lit c) ∧ (P i).arg2 = some (.lit c') ∧ OpFact (val i) o x.1.1 c (some c') := by
      intro i hi
      have : (y.map fun q => q.1.1) = b.map fun _ => ((y.map Prod.fst).getD x.1).1 := by
        cases b with
        | none => cases hy2 rfl; rfl
        | some b => obtain ⟨q, rfl, hq⟩ := hy1 b rfl; rfl
      rw [this] at hsm
      rcases hsm.fact (val := val i) hok (by
        rintro c rfl
        obtain ⟨q, rfl, hq2⟩ := hy1 _ rfl
        injection hq2 with hq2; subst hq2; rfl) with h | ⟨c, rfl, h⟩
      · exact .inl h
      · obtain ⟨s, h1, h2⟩ := hi c rfl
        exact .inr ⟨c, s, rfl, h1, h s h2⟩
    set r := famOp A o x y with hr
    have hval : opVal o x.pt (y.map Fam.pt) = r.1.1 := by cases y <;> rfl
    have hdval : opDval o x.pt (y.map Fam.pt) = r.1.2 := by cases y <;> rfl
    simp only [hval, hdval, List.length_map] at l2 l3
    have hG' : ∀ q ∈ G ++ [r], q.Near l val u := by
      intro q hq'
      rcases List.mem_append.mp hq' with h | h
      · exact hG q h
      · rw [List.mem_singleton] at h; subst h; exact hq
    have hnext : ∀ᶠ i in l, (k G.length r.1.1).Same (val i) ((P i).next G.length (r.2 i).1) := by
      obtain ⟨rr, n1, n2⟩ := hq.1
      have := (F.near_tendsto n1).eventually (Metric.ball_mem_nhds r.1.1 he)
      filter_upwards [this, n2, hP'] with i h1 h2 h3
      have h4 := h3.2.2.2 G.length _ _ h2
      rw [l2 _ (by rwa [Real.dist_eq] at h1)] at h4
      exact h4
    obtain ⟨⟨K1, hK1, c1⟩, c2⟩ := ih G.length r.1.1 _ hnext (G ++ [r]) hG' (by
      rw [List.map_append]; exact l3)
    obtain ⟨K2, hK2, c3⟩ := hq.bound h0
    have hopD : opD exactFlt o x.1 (y.map Prod.fst) = r.1 := rfl
    have hopD' : ∀ i, opD (A i) o (x.2 i) (y.map fun q => q.2 i) = r.2 i := fun i => rfl
    refine ⟨⟨max K1 K2, le_max_of_le_left hK1, ?_⟩, ?_⟩
    · filter_upwards [c1, c3, hP', ea', eb'] with i d1 d2 hi ea' eb'
      have m1 : K1 * u i ≤ max K1 K2 * u i := mul_le_mul_of_nonneg_right (le_max_left _ _) (h0 i)
      have m2 : K2 * u i ≤ max K1 K2 * u i := mul_le_mul_of_nonneg_right (le_max_right _ _) (h0 i)
      have m0 : 0 ≤ max K1 K2 * u i := mul_nonneg (le_max_of_le_left hK1) (h0 i)
      rw [hi.1]
      refine ⟨rfl, hi.2.1.rel2 m0, Arg.Same.rel2_opt m0 hi.2.2.1, ?_⟩
      intro x1 x1' y1 y1' e1 e2 e3 e4 _
      rw [ea] at e1; injection e1 with e1; subst e1
      rw [ea'] at e2; injection e2 with e2; subst e2
      rw [eb] at e3; injection e3 with e3; subst e3
      rw [eb'] at e4; injection e4 with e4; subst e4
      rw [hopD, hopD' i, List.length_map]
      refine ⟨⟨d2.1.mono m2, d2.2.mono m2⟩, hfact i ?_, ?_⟩
      · rintro c rfl
        have h := hi.2.2.1
        generalize (P i).arg2 = z at h
        cases h with
        | some h =>
          cases h with
          | lit h => exact ⟨_, rfl, h⟩
      have := Prog.Along2.mono (R := WithinM (val i) (max K1 K2 * u i)) (fun s t h => h.mono m1) _ d1
      rwa [List.map_append, List.map_append] at this
    · intro z hz
      rw [Prog.runS, ea] at hz
      simp only [bind_ok_eq, eb, eo1, hok, if_true, List.length_map] at hz
      obtain ⟨Y, y1, y2, y3⟩ := c2 z (by rw [List.map_append]; exact hz)
      refine ⟨Y, y1, y2, ?_⟩
      filter_upwards [y3, hP', ea', eb'] with i d1 hi ea' eb'
      rw [hi.1, @Prog.runS.eq_2 (S i) (A i), ea']
      simp only [bind_ok_eq, eb', eo2 i, hok, if_true, List.length_map]
      rw [List.map_append] at d1
      exact d1

/-- The values of a family of variables. -/
theorem vals_near {ε : ℝ} (he : 0 < ε) : ∀ {G : List (Fam S)}, (∀ q ∈ G, q.Near l val u) →
    ∀ᶠ i in l, ∃ xs : List ℝ, List.Forall₂ (fun x s => val i s = some x) xs ((G.map fun q => q.2 i).map Prod.fst) ∧
      List.Forall₂ (fun x y => |x - y| < ε) xs ((G.map Prod.fst).map Prod.fst)
  | [], _ => Eventually.of_forall fun _ => ⟨[], .nil, .nil⟩
  | q :: G, hG => by
      obtain ⟨r, n1, n2⟩ := (hG q (by simp)).1
      have := (F.near_tendsto n1).eventually (Metric.ball_mem_nhds q.1.1 he)
      filter_upwards [this, n2, vals_near he (G := G) fun q hq => hG q (by simp [hq])] with i h1 h2 ⟨xs, h3, h4⟩
      exact ⟨r i :: xs, .cons h2 h3, .cons (by rwa [Real.dist_eq] at h1) h4⟩

/-- The links of a chain in machine arithmetics. -/
theorem progs (w : World ℝ) : ∀ (ps : List (List ℝ → Prog ℝ)) (Ps : ∀ i, List (List (S i) → Prog (S i))),
    (∀ᶠ i in l, List.Forall₂ (fun p p' => ∀ xs xs', List.Forall₂ (fun x s => val i s = some x) xs xs' →
      (p xs).Same (val i) (p' xs')) ps (Ps i)) →
    ∀ (G : List (Fam S)), (∀ q ∈ G, q.Near l val u) → alongProgs piecewiseSmooth w ps (G.map Fam.pt) →
    ∃ K, 0 ≤ K ∧ ∀ᶠ i in l, along2Progs exactFlt (A i) (WithinM (val i) (K * u i)) (OpFact (val i)) ps (Ps i) (G.map Prod.fst)
      (G.map fun q => q.2 i)
  | [], Ps, hP, G, hG, hal => by
      refine ⟨0, le_refl _, ?_⟩
      filter_upwards [hP] with i hi
      rw [List.forall₂_nil_left_iff] at hi
      rw [hi]; trivial
  | p :: ps, Ps, hP, G, hG, ⟨⟨ε, he, h1⟩, h2, h3⟩ => by
      have h0 : ∀ i, 0 ≤ u i := fun i => (F.machine i).nonneg
      have hcons : ∀ᶠ i in l, Ps i = (Ps i).headD (fun _ => .panic) :: (Ps i).tail ∧
          (∀ xs xs', List.Forall₂ (fun x s => val i s = some x) xs xs' →
            (p xs).Same (val i) ((Ps i).headD (fun _ => .panic) xs')) ∧
          List.Forall₂ (fun p p' => ∀ xs xs', List.Forall₂ (fun x s => val i s = some x) xs xs' →
            (p xs).Same (val i) (p' xs')) ps (Ps i).tail := by
        filter_upwards [hP] with i hi
        generalize Ps i = z at hi
        cases hi with
        | cons k1 k2 => exact ⟨rfl, k1, k2⟩
      have hv : (G.map Fam.pt).map AFloat.v = (G.map Prod.fst).map Prod.fst := by
        rw [List.map_map, List.map_map]; rfl
      rw [hv] at h1 h2 h3
      have hpe : ∀ᶠ i in l, (p ((G.map Prod.fst).map Prod.fst)).Same (val i)
          ((Ps i).headD (fun _ => .panic) ((G.map fun q => q.2 i).map Prod.fst)) := by
        filter_upwards [F.vals_near he hG, hcons] with i ⟨xs, k1, k2⟩ k3
        have := k3.2.1 _ _ k1
        rw [h1 xs] at this
        · exact this
        · have := k2.length_eq; simpa using this
        · intro k l1 l2
          have l3 : k < ((G.map Prod.fst).map Prod.fst).length := by simpa using l2
          have := (List.forall₂_iff_get.mp k2).2 k l1 l3
          simpa [Fam.pt, AFloat.new] using this
      obtain ⟨⟨K1, hK1, c1⟩, c2⟩ := F.prog w _ _ hpe G hG h2
      rcases hy : (p ((G.map Prod.fst).map Prod.fst)).runS dualSh (G.map Prod.fst) with e | y
      · refine ⟨K1, hK1, ?_⟩
        filter_upwards [c1, hcons] with i d1 d2
        rw [d2.1]
        refine ⟨d1, fun y y' e1 _ => ?_⟩
        rw [hy] at e1; cases e1
      obtain ⟨Y, y1, y2, y3⟩ := c2 y hy
      obtain ⟨r, r1, r2, r3⟩ := Prog.run_free (p ((G.map Prod.fst).map Prod.fst)) (G.map Fam.pt) w (by
        intro a ha; obtain ⟨q, -, rfl⟩ := List.mem_map.mp ha; rfl)
      have hd : (G.map Fam.pt).map AFloat.dual = G.map Prod.fst := by rw [List.map_map]; rfl
      rw [hd, hy] at r3
      rcases r with e | ya
      · cases r3
      injection r3 with r3
      have hya : ya = Y.map Fam.pt := by
        have e1 : ∀ a ∈ ya, a.ctx = none := r2 ya rfl
        apply List.ext_getElem
        · have := congrArg List.length r3
          rw [← y2] at this
          simpa using this.symm
        · intro k k1 k2
          have e2 := e1 _ (List.getElem_mem k1)
          have e3 : (ya.map AFloat.dual)[k]? = (Y.map Prod.fst)[k]? := by rw [y2, ← r3]
          simp only [List.length_map] at k2
          rw [List.getElem?_map, List.getElem?_map, List.getElem?_eq_getElem k1, List.getElem?_eq_getElem k2] at e3
          simp only [Option.map_some, Option.some.injEq] at e3
          rw [List.getElem_map]
          unfold Fam.pt AFloat.new
          rw [← e3, ← e2]
          rfl
      obtain ⟨K2, hK2, c4⟩ := progs w ps (fun i => (Ps i).tail) (hcons.mono fun _ h => h.2.2) Y y1 (by
        rw [← hya]; exact h3 ya (by rw [r1]))
      refine ⟨max K1 K2, le_max_of_le_left hK1, ?_⟩
      filter_upwards [c1, hcons, y3, c4] with i d1 d2 d3 d4
      have m1 : K1 * u i ≤ max K1 K2 * u i := mul_le_mul_of_nonneg_right (le_max_left _ _) (h0 i)
      have m2 : K2 * u i ≤ max K1 K2 * u i := mul_le_mul_of_nonneg_right (le_max_right _ _) (h0 i)
      rw [d2.1]
      refine ⟨Prog.Along2.mono (fun s t h => h.mono m1) _ d1, fun z z' e1 e2 => ?_⟩
      rw [hy] at e1; injection e1 with e1; subst e1
      rw [d3] at e2; injection e2 with e2; subst e2
      rw [← y2]
      exact along2Progs.mono (fun s t h => h.mono m2) _ d4

end Ariths
end Adv
