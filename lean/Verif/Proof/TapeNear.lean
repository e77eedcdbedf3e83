import Verif.Proof.SemiFunc
import Verif.Proof.Kinks
import Verif.Proof.Layout

/-!
# Tapes near a point

If small changes do not change the control flow, the tapes at all points near a fixed one have the same entries, and the numbers are
continuous functions of the point.
-/

set_option linter.unusedSectionVars false

namespace Adv
open Filter Topology

variable {X A : Type} [NormedAddCommGroup X] [NormedSpace ℝ X] {x0 : X}

/-! ## Derivatives of elementary operations near a point -/

theorem ffun_near_un {o : OpCode} (ho : o.isUnary = true) (habs : o ≠ .Abs) {p : X → ℝ} (hp : ContinuousAt p x0)
    (hs : SmoothOp o none (p x0) none) {d : X → ℝ} (hd : ContinuousAt d x0) :
    ContinuousAt (fun z => ffun o (p z) (p z) (d z) (d z)) x0 := by
  obtain ⟨k, h1, hc2, h2⟩ := smooth_un ho habs hs
  have hcd : ContinuousAt (fderiv ℝ fun s : ℝ => zfun o s s) (p x0) := (hc2.fderiv_right (m := 1) (by norm_num)).continuousAt
  have hev := SmoothOp.eventually (arg := none) (h := p) (by simpa [arityOk] using ho) hp hp hs
  have e : ∀ᶠ z in 𝓝 x0, ffun o (p z) (p z) (d z) (d z) = fderiv ℝ (fun s : ℝ => zfun o s s) (p z) (d z) := by
    filter_upwards [hev] with z hz
    obtain ⟨k', g1, -, g2⟩ := smooth_un ho habs (a := p z) hz
    rw [g2, g1.hasFDerivAt.fderiv]
    simp [mul_comm]
  refine ContinuousAt.congr ?_ (e.mono fun z hz => hz.symm)
  exact (ContinuousAt.comp (g := fderiv ℝ fun s : ℝ => zfun o s s) hcd hp).clm_apply hd

theorem ffun_near_bin {o : OpCode} (ho : o.isBinary = true) {arg : Arg ℝ} {p q : X → ℝ} (hp : ContinuousAt p x0)
    (hq : ContinuousAt q x0) (hb : ∀ z c, arg = .lit c → q z = c) (hs : SmoothOp o (some arg) (p x0) (some (q x0)))
    {d1 d2 : X → ℝ} (h1 : ContinuousAt d1 x0) (h2 : ContinuousAt d2 x0) (hl : ∀ z c, arg = .lit c → d2 z = 0) :
    ContinuousAt (fun z => ffun o (p z) (q z) (d1 z) (d2 z)) x0 := by
  obtain ⟨φ, M, k1, hc2, k2, k3⟩ := smooth_bin ho hs (hb x0)
  have hev := SmoothOp.eventually (arg := some arg) (by simpa [arityOk] using ho) hp hq hs
  have hdiff : ∀ᶠ z in 𝓝 x0, DifferentiableAt ℝ φ (p z, q z) := by
    have hcd : ∀ᶠ y in 𝓝 (p x0, q x0), ContDiffAt ℝ 2 φ y := hc2.eventually (by simp)
    filter_upwards [(hp.prodMk hq).eventually hcd] with z hz using hz.differentiableAt (by norm_num)
  have e : ∀ᶠ z in 𝓝 x0, ffun o (p z) (q z) (d1 z) (d2 z) = fderiv ℝ φ (p z, q z) (d1 z, d2 z) := by
    filter_upwards [hev, hdiff] with z hz hzd
    exact ffun_fderiv ho hz (hb z) hzd k2 (hl z)
  refine ContinuousAt.congr ?_ (e.mono fun z hz => hz.symm)
  have hcd : ContinuousAt (fderiv ℝ φ) (p x0, q x0) := (hc2.fderiv_right (m := 1) (by norm_num)).continuousAt
  exact (ContinuousAt.comp (g := fderiv ℝ φ) (f := fun z => (p z, q z)) hcd (hp.prodMk hq)).clm_apply (h1.prodMk h2)

/-! ## Entries whose numbers are functions of a point -/

/-- The entries at `z`. -/
def Layout.at_ (l : Layout (X → ℝ)) (z : X) : Layout ℝ := ⟨l.vals.map fun g => g z, l.ops⟩

/-- A number of the program and its place. -/
def nodeAt (z : X) (h : ((X → ℝ) × A) × Option ℕ) : Node ℝ := (h.1.1 z, h.2)

/-- The place of a number holds this number. -/
def Placed (l : Layout (X → ℝ)) (g : X → ℝ) (i : Option ℕ) : Prop := ∀ k, i = some k → l.vals[k]? = some g

/-- The numbers are continuous functions, and so are the increments that the operations compute. -/
structure LayoutNear (x0 : X) (l : Layout (X → ℝ)) : Prop where
  cont : ∀ g ∈ l.vals, ContinuousAt g x0
  args : ∀ op ∈ l.ops, op.opcode.computes = true → op.a1 < l.vals.length ∧ op.a2 < l.vals.length
  incr : ∀ op ∈ l.ops, op.opcode.computes = true → op.opcode ≠ .Abs → ∀ d1 d2 : X → ℝ, ContinuousAt d1 x0 → ContinuousAt d2 x0 →
    (op.a1 = op.a2 → d1 = d2) → (∀ c ∈ l.ops, c.opcode = .Const → c.vid = op.a2 → d2 = fun _ => 0) →
    ContinuousAt (fun z => ffun op.opcode (l.vals.getD op.a1 0 z) (l.vals.getD op.a2 0 z) (d1 z) (d2 z)) x0

omit [NormedAddCommGroup X] [NormedSpace ℝ X] in
theorem Placed.mono {l l' : Layout (X → ℝ)} {g : X → ℝ} {i : Option ℕ} (h : Placed l g i) (hl : l.vals <+: l'.vals) : Placed l' g i := by
  intro k hk
  obtain ⟨r, hr⟩ := hl
  have h1 := h k hk
  rw [← hr, List.getElem?_append_left (List.getElem?_eq_some_iff.mp h1).1]
  exact h1

/-- One more entry. -/
theorem LayoutNear.add {l : Layout (X → ℝ)} (h : LayoutNear x0 l) {o : OpCode} {g : X → ℝ} {a b : Option ℕ} (hg : ContinuousAt g x0)
    (ha : o.computes = true → (Operation.a1 ⟨o, l.vals.length, a, b⟩) < l.vals.length ∧
      (Operation.a2 ⟨o, l.vals.length, a, b⟩) < l.vals.length)
    (hi : o.computes = true → o ≠ .Abs → ∀ d1 d2 : X → ℝ, ContinuousAt d1 x0 → ContinuousAt d2 x0 →
      ((Operation.a1 ⟨o, l.vals.length, a, b⟩) = (Operation.a2 ⟨o, l.vals.length, a, b⟩) → d1 = d2) →
      (∀ c ∈ l.ops, c.opcode = .Const → c.vid = (Operation.a2 ⟨o, l.vals.length, a, b⟩) → d2 = fun _ => 0) →
      ContinuousAt (fun z => ffun o (l.vals.getD (Operation.a1 ⟨o, l.vals.length, a, b⟩) 0 z)
        (l.vals.getD (Operation.a2 ⟨o, l.vals.length, a, b⟩) 0 z) (d1 z) (d2 z)) x0) :
    LayoutNear x0 (l.add o g a b).2 := by
  have hgd : ∀ k, k < l.vals.length → (l.vals ++ [g]).getD k 0 = l.vals.getD k 0 := by
    intro k hk
    rw [List.getD_eq_getElem?_getD, List.getD_eq_getElem?_getD, List.getElem?_append_left hk]
  constructor
  · intro g' hg'
    rcases List.mem_append.mp hg' with h1 | h1
    · exact h.cont g' h1
    · rw [List.mem_singleton] at h1; subst h1; exact hg
  · intro op hop hc
    show _ < (l.vals ++ [g]).length ∧ _ < (l.vals ++ [g]).length
    rw [List.length_append, List.length_singleton]
    rcases List.mem_append.mp hop with h1 | h1
    · have := h.args op h1 hc; omega
    · rw [List.mem_singleton] at h1
      subst h1
      have := ha hc; omega
  · intro op hop hc hab d1 d2 hd1 hd2 he hcst
    show ContinuousAt (fun z => ffun op.opcode ((l.vals ++ [g]).getD op.a1 0 z) ((l.vals ++ [g]).getD op.a2 0 z) (d1 z) (d2 z)) x0
    rcases List.mem_append.mp hop with h1 | h1
    · obtain ⟨b1, b2⟩ := h.args op h1 hc
      rw [hgd _ b1, hgd _ b2]
      exact h.incr op h1 hc hab d1 d2 hd1 hd2 he fun c hc' => hcst c (List.mem_append_left _ hc')
    · rw [List.mem_singleton] at h1
      subst h1
      obtain ⟨b1, b2⟩ := ha hc
      rw [hgd _ b1, hgd _ b2]
      exact hi hc hab d1 d2 hd1 hd2 he fun c hc' => hcst c (List.mem_append_left _ hc')

/-- The place of a number. -/
theorem LayoutNear.place {l : Layout (X → ℝ)} (h : LayoutNear x0 l) {g : X → ℝ} {i : Option ℕ} (hg : ContinuousAt g x0)
    (hi : Placed l g i) : ∃ k l', LayoutNear x0 l' ∧ l.vals <+: l'.vals ∧ l.ops <+: l'.ops ∧ l'.vals[k]? = some g ∧
      (i = none → ∃ c ∈ l'.ops, c.opcode = .Const ∧ c.vid = k) ∧ ∀ z, (l.at_ z).place (g z, i) = (k, l'.at_ z) := by
  cases i with
  | some k => exact ⟨k, l, h, List.prefix_rfl, List.prefix_rfl, hi k rfl, fun h => (by cases h), fun z => rfl⟩
  | none =>
    refine ⟨l.vals.length, (l.add .Const g none none).2, h.add hg (fun hc => (by cases hc)) (fun hc => (by cases hc)),
      ⟨_, rfl⟩, ⟨_, rfl⟩, ?_, fun _ => ⟨_, List.mem_append_right _ (List.mem_singleton_self _), rfl, rfl⟩, fun z => ?_⟩
    · show (l.vals ++ [g])[l.vals.length]? = _
      simp
    · simp [Layout.place, Layout.add, Layout.at_]

theorem arg_node {C : NearCalc X A x0} {H : List (((X → ℝ) × A) × Option ℕ)} {l : Layout (X → ℝ)}
    (hl : ∀ h ∈ H, Placed l h.1.1 h.2) {a : Arg ℝ} {q : (X → ℝ) × A}
    (h : a.getS C.sh ((H.map Prod.fst).map (NearCalc.tag x0)) = .ok (NearCalc.tag x0 q)) :
    ∃ i, Placed l q.1 i ∧ (∀ c, a = .lit c → i = none ∧ ∀ z, q.1 z = c) ∧ ∀ z, a.node (H.map (nodeAt z)) = some (q.1 z, i) := by
  cases a with
  | var k =>
    simp only [Arg.getS, List.getElem?_map] at h
    rcases hk : H[k]? with _ | q'
    · rw [hk] at h; cases h
    · rw [hk] at h
      simp only [Option.map_some] at h
      injection h with h
      have e : q'.1 = q := NearHom.tag_inj h
      subst e
      refine ⟨q'.2, hl q' (List.mem_of_getElem? hk), fun c hc => (by cases hc), fun z => ?_⟩
      simp [Arg.node, hk, nodeAt]
  | lit c =>
    simp only [Arg.getS] at h
    injection h with h
    have hq : q = C.sh.cst c := (congrArg Prod.snd h).symm
    refine ⟨none, fun k hk => (by cases hk), fun c' hc => ?_, fun z => ?_⟩
    · injection hc with hc
      subst hc
      exact ⟨rfl, fun z => by rw [hq, C.cst_fst]⟩
    · rw [hq, C.cst_fst]; rfl

theorem outs_node {C : NearCalc X A x0} {H : List (((X → ℝ) × A) × Option ℕ)} {l : Layout (X → ℝ)}
    (hl : ∀ h ∈ H, Placed l h.1.1 h.2) : ∀ (os : List (Arg ℝ)) (Y : List ((X → ℝ) × A)),
    os.mapM (Arg.getS C.sh ((H.map Prod.fst).map (NearCalc.tag x0))) = .ok (Y.map (NearCalc.tag x0)) →
    ∃ W : List (((X → ℝ) × A) × Option ℕ), W.map Prod.fst = Y ∧ (∀ h ∈ W, Placed l h.1.1 h.2) ∧
      ∀ z, os.mapM (Arg.node (H.map (nodeAt z))) = some (W.map (nodeAt z))
  | [], Y, h => by
      have h' : Y.map (NearCalc.tag x0) = [] := by injection h with h; exact h.symm
      rw [List.map_eq_nil_iff] at h'
      subst h'
      exact ⟨[], rfl, by simp, fun z => rfl⟩
  | o :: os, Y, h => by
      rw [List.mapM_cons] at h
      rcases ho : o.getS C.sh ((H.map Prod.fst).map (NearCalc.tag x0)) with e | s
      · rw [ho] at h; cases h
      rw [ho, bind_ok_eq] at h
      rcases hr : os.mapM (Arg.getS C.sh ((H.map Prod.fst).map (NearCalc.tag x0))) with e | Y1
      · rw [hr] at h; cases h
      rw [hr, bind_ok_eq] at h
      have h' : Y.map (NearCalc.tag x0) = s :: Y1 := by injection h with h; exact h.symm
      cases Y with
      | nil => cases h'
      | cons q Y =>
        rw [List.map_cons] at h'
        injection h' with e1 e2
        subst e1 e2
        obtain ⟨i, i1, -, i2⟩ := arg_node hl ho
        obtain ⟨W, w1, w2, w3⟩ := outs_node hl os Y hr
        refine ⟨(q, i) :: W, by rw [List.map_cons, w1], ?_, fun z => ?_⟩
        · intro h hh
          rcases List.mem_cons.mp hh with rfl | hh
          · exact i1
          · exact w2 h hh
        · rw [List.mapM_cons, i2, w3]
          rfl

/-- User code. -/
theorem layout_prog (C : NearCalc X A x0) (w : World ℝ) (p : Prog ℝ) : ∀ (H : List (((X → ℝ) × A) × Option ℕ)) (l : Layout (X → ℝ))
    (env0 : List (AFloat ℝ)) (Y : List ((X → ℝ) × A)),
    (∀ q ∈ H.map Prod.fst, C.Good q) → Calculus.Over (H.map Prod.fst) x0 env0 → p.Along piecewiseSmooth w env0 →
    p.runS C.sh ((H.map Prod.fst).map (NearCalc.tag x0)) = .ok (Y.map (NearCalc.tag x0)) →
    (∀ h ∈ H, Placed l h.1.1 h.2) → LayoutNear x0 l →
    ∃ (W : List (((X → ℝ) × A) × Option ℕ)) (l' : Layout (X → ℝ)), W.map Prod.fst = Y ∧ LayoutNear x0 l' ∧
      (∀ h ∈ W, Placed l' h.1.1 h.2) ∧ l.vals <+: l'.vals ∧
      ∀ᶠ z in 𝓝 x0, p.layout (H.map (nodeAt z)) (l.at_ z) = some (W.map (nodeAt z), l'.at_ z) := by
  induction p with
  | panic =>
    intro H l env0 Y hG ho hal hr
    cases hr
  | ret os =>
    intro H l env0 Y hG ho hal hr hpl hln
    obtain ⟨W, w1, w2, w3⟩ := outs_node hpl os Y hr
    refine ⟨W, l, w1, hln, w2, List.prefix_rfl, .of_forall fun z => ?_⟩
    rw [Prog.layout, w3]
    rfl
  | op o a b k ih =>
    intro H l env0 Y hG ho hal hr hpl hln
    set G := H.map Prod.fst with hGd
    rw [Prog.runS] at hr
    rcases ha : a.getS C.sh (G.map (NearCalc.tag x0)) with e | s
    · rw [ha] at hr; cases hr
    rw [ha, bind_ok_eq] at hr
    obtain ⟨qa, rfl, ga, -, oa⟩ := C.arg hG ha
    obtain ⟨ia, pa, -, na⟩ := arg_node (l := l) hpl (by rw [← hGd]; exact ha)
    rcases hb : Arg.getSOpt C.sh (G.map (NearCalc.tag x0)) b with e | sb
    · rw [hb] at hr; cases hr
    rw [hb, bind_ok_eq] at hr
    -- the rest of the program
    have step : ∀ (new : (X → ℝ) × A) (a' : AFloat ℝ) (b' : Option (AFloat ℝ)), C.Good new → opVal o a' b' = new.1 x0 →
        (k env0.length (opVal o a' b')).Along piecewiseSmooth w (env0 ++ [⟨opVal o a' b', opDval o a' b', none⟩]) →
        (∃ ε > 0, ∀ v, |v - opVal o a' b'| < ε → k env0.length v = k env0.length (opVal o a' b')) →
        (k G.length (new.1 x0)).runS C.sh ((G ++ [new]).map (NearCalc.tag x0)) = .ok (Y.map (NearCalc.tag x0)) →
        ∀ (i : Option ℕ) (l1 : Layout (X → ℝ)), LayoutNear x0 l1 → l.vals <+: l1.vals → Placed l1 new.1 i →
        ∃ (W : List (((X → ℝ) × A) × Option ℕ)) (l' : Layout (X → ℝ)), W.map Prod.fst = Y ∧ LayoutNear x0 l' ∧
          (∀ h ∈ W, Placed l' h.1.1 h.2) ∧ l.vals <+: l'.vals ∧
          ∀ᶠ z in 𝓝 x0, (k H.length (new.1 z)).layout (H.map (nodeAt z) ++ [(new.1 z, i)]) (l1.at_ z) =
            some (W.map (nodeAt z), l'.at_ z) := by
      intro new a' b' hgood hv hal' hst hr' i l1 hl1 hpre hpl1
      have hlen : env0.length = G.length := Calculus.over_length ho
      have hlenH : G.length = H.length := by rw [hGd, List.length_map]
      rw [hv, hlen] at hal' hst
      obtain ⟨W, l', w1, w2, w3, w4, w5⟩ := ih G.length (new.1 x0) (H ++ [(new, i)]) l1
        (env0 ++ [⟨new.1 x0, opDval o a' b', none⟩]) Y (by
          intro q hq
          rw [List.map_append, List.map_singleton] at hq
          rcases List.mem_append.mp hq with hq | hq
          · exact hG q hq
          · rw [List.mem_singleton] at hq; subst hq; exact hgood)
        (by
          rw [List.map_append, List.map_singleton]
          exact Calculus.over_append (g := new.1) (r := new.2) ho rfl) hal'
        (by rw [List.map_append, List.map_singleton]; exact hr')
        (by
          intro h hh
          rcases List.mem_append.mp hh with hh | hh
          · exact (hpl h hh).mono hpre
          · rw [List.mem_singleton] at hh; subst hh; exact hpl1) hl1
      refine ⟨W, l', w1, w2, w3, hpre.trans w4, ?_⟩
      obtain ⟨ε, he, hst⟩ := hst
      have hnear : ∀ᶠ z in 𝓝 x0, |new.1 z - new.1 x0| < ε := by
        have := (C.cont new hgood).eventually (Metric.ball_mem_nhds (new.1 x0) he)
        filter_upwards [this] with z hz
        rwa [Real.dist_eq] at hz
      filter_upwards [w5, hnear] with z hz1 hz2
      rw [List.map_append, List.map_singleton] at hz1
      rw [← hlenH, hst _ hz2]
      exact hz1
    obtain ⟨a0, k1, k2, k3⟩ := oa x0 env0 ho
    cases b with
    | none =>
      simp only [Arg.getSOpt] at hb
      injection hb with hb
      subst hb
      by_cases har : arityOk o (none : Option (ℝ × (X → ℝ) × A)) = true
      swap
      · rw [if_neg har] at hr; cases hr
      rw [if_pos har] at hr
      have hun : o.isUnary = true := har
      have hA := hal a0 none _ k1 rfl har (by rw [fromOp_free w har k2 (by simp)])
      have hs := hA.1
      unfold piecewiseSmooth at hs
      rw [k3] at hs
      have hgood := C.un o qa hun ga hs
      set new := C.sh.op o (qa.1 x0) (qa.1 x0) qa qa with hnew
      have hnf : new.1 = fun z => zfun o (qa.1 z) (qa.1 z) := C.op_fst _ _ _ _ _
      have hv : opVal o a0 none = new.1 x0 := by
        rw [hnf]; unfold opVal; simp [k3]
      have hst := step new a0 none hgood hv hA.2.2 hA.2.1 (by
        have e : NearCalc.tag x0 new = (zfun o (qa.1 x0) (qa.1 x0), new) := by unfold NearCalc.tag; rw [hnf]
        rw [List.map_append, List.map_singleton, e]
        rw [List.length_map] at hr
        have e2 : new.1 x0 = zfun o (qa.1 x0) (qa.1 x0) := by rw [hnf]
        rw [e2]
        exact hr)
      have hmean : ∀ z, o.meaning (qa.1 z) none = some (new.1 z) := by
        intro z
        rw [meaning_zfun, if_pos (show arityOk o (none : Option ℝ) = true from har), hnf]; rfl
      cases ia with
      | none =>
        obtain ⟨W, l', w1, w2, w3, w4, w5⟩ := hst none l hln List.prefix_rfl (fun k hk => by cases hk)
        refine ⟨W, l', w1, w2, w3, w4, ?_⟩
        filter_upwards [w5] with z hz
        rw [Prog.layout, na z]
        simp only [Option.bind_eq_bind, Option.bind_some, hmean, List.length_map]
        exact hz
      | some i =>
        have hi := pa i rfl
        have hil : i < l.vals.length := (List.getElem?_eq_some_iff.mp hi).1
        have hgi : l.vals.getD i 0 = qa.1 := by rw [List.getD_eq_getElem?_getD, hi]; rfl
        obtain ⟨W, l', w1, w2, w3, w4, w5⟩ := hst (some l.vals.length) (l.add o new.1 (some i) none).2
          (hln.add (C.cont _ hgood) (fun _ => ⟨hil, hil⟩) (fun hc hab d1 d2 h1 h2 he _ => by
            have hd : d1 = d2 := he rfl
            subst hd
            show ContinuousAt (fun z => ffun o (l.vals.getD i 0 z) (l.vals.getD i 0 z) (d1 z) (d1 z)) x0
            rw [hgi]
            exact ffun_near_un hun hab (C.cont _ ga) hs h1)) ⟨_, rfl⟩ (fun k hk => by
            injection hk with hk
            subst hk
            show (l.vals ++ [new.1])[l.vals.length]? = _
            simp)
        refine ⟨W, l', w1, w2, w3, w4, ?_⟩
        filter_upwards [w5] with z hz
        rw [Prog.layout, na z]
        simp only [Option.bind_eq_bind, Option.bind_some, hmean, List.length_map]
        have e : (l.at_ z).add o (new.1 z) (some i) none = (l.vals.length, (l.add o new.1 (some i) none).2.at_ z) := by
          simp [Layout.add, Layout.at_]
        rw [e]
        exact hz
    | some b =>
      rcases hb' : b.getS C.sh (G.map (NearCalc.tag x0)) with e | s
      · simp only [Arg.getSOpt, hb'] at hb; cases hb
      simp only [Arg.getSOpt, hb'] at hb
      injection hb with hb
      subst hb
      obtain ⟨qb, rfl, gb, lb, ob⟩ := C.arg hG hb'
      obtain ⟨ib, pb, litb, nb⟩ := arg_node (l := l) hpl (by rw [← hGd]; exact hb')
      by_cases har : arityOk o (some (NearCalc.tag x0 qb)) = true
      swap
      · rw [if_neg har] at hr; cases hr
      rw [if_pos har] at hr
      have hbin : o.isBinary = true := har
      obtain ⟨b0, l1, l2, l3⟩ := ob x0 env0 ho
      have hA := hal a0 (some b0) _ k1 (by simp only [Arg.getOpt, l1]; rfl) har
        (by rw [fromOp_free w har k2 (fun c hc => by injection hc with hc; subst hc; exact l2)])
      have hs := hA.1
      unfold piecewiseSmooth at hs
      rw [k3, Option.map_some, l3] at hs
      have hgood := C.bin o b qa qb hbin ga gb lb hs
      set new := C.sh.op o (qa.1 x0) (qb.1 x0) qa qb with hnew
      have hnf : new.1 = fun z => zfun o (qa.1 z) (qb.1 z) := C.op_fst _ _ _ _ _
      have hv : opVal o a0 (some b0) = new.1 x0 := by
        rw [hnf]; unfold opVal; simp [k3, l3]
      have hst := step new a0 (some b0) hgood hv hA.2.2 hA.2.1 (by
        have e : NearCalc.tag x0 new = (zfun o (qa.1 x0) (qb.1 x0), new) := by unfold NearCalc.tag; rw [hnf]
        rw [List.map_append, List.map_singleton, e]
        rw [List.length_map] at hr
        have e2 : new.1 x0 = zfun o (qa.1 x0) (qb.1 x0) := by rw [hnf]
        rw [e2]
        exact hr)
      have hmean : ∀ z, o.meaning (qa.1 z) (some (qb.1 z)) = some (new.1 z) := by
        intro z
        rw [meaning_zfun, if_pos (show arityOk o (some (qb.1 z)) = true from har), hnf]; rfl
      by_cases hnn : ia = none ∧ ib = none
      · obtain ⟨rfl, rfl⟩ := hnn
        obtain ⟨W, l', w1, w2, w3, w4, w5⟩ := hst none l hln List.prefix_rfl (fun k hk => by cases hk)
        refine ⟨W, l', w1, w2, w3, w4, ?_⟩
        filter_upwards [w5] with z hz
        rw [Prog.layout, na z, nb z]
        simp only [Option.bind_eq_bind, Option.bind_some, hmean, List.length_map]
        exact hz
      · obtain ⟨i, la, a1, a2, a3, a4, a5, a6⟩ := hln.place (C.cont _ ga) pa
        obtain ⟨j, lb', b1, b2, b3, b4, b5, b6⟩ := a1.place (C.cont _ gb) (pb.mono a2)
        have hi : lb'.vals[i]? = some qa.1 := by
          have : Placed la qa.1 (some i) := fun k hk => by injection hk with hk; subst hk; exact a4
          exact this.mono b2 i rfl
        have hil : i < lb'.vals.length := (List.getElem?_eq_some_iff.mp hi).1
        have hjl : j < lb'.vals.length := (List.getElem?_eq_some_iff.mp b4).1
        have hgi : lb'.vals.getD i 0 = qa.1 := by rw [List.getD_eq_getElem?_getD, hi]; rfl
        have hgj : lb'.vals.getD j 0 = qb.1 := by rw [List.getD_eq_getElem?_getD, b4]; rfl
        obtain ⟨W, l', w1, w2, w3, w4, w5⟩ := hst (some lb'.vals.length) (lb'.add o new.1 (some i) (some j)).2
          (b1.add (C.cont _ hgood) (fun _ => ⟨hil, hjl⟩) (fun hc hab d1 d2 h1 h2 he hcst => by
            show ContinuousAt (fun z => ffun o (lb'.vals.getD i 0 z) (lb'.vals.getD j 0 z) (d1 z) (d2 z)) x0
            rw [hgi, hgj]
            refine ffun_near_bin hbin (arg := b) (C.cont _ ga) (C.cont _ gb) (fun z c hc => (litb c hc).2 z) hs h1 h2 fun z c hc => ?_
            obtain ⟨c', c1, c2, c3⟩ := b5 (litb c hc).1
            rw [hcst c' c1 c2 c3])) ((a2.trans b2).trans ⟨_, rfl⟩) (fun k hk => by
            injection hk with hk
            subst hk
            show (lb'.vals ++ [new.1])[lb'.vals.length]? = _
            simp)
        refine ⟨W, l', w1, w2, w3, w4, ?_⟩
        filter_upwards [w5] with z hz
        have e : (lb'.at_ z).add o (new.1 z) (some i) (some j) = (lb'.vals.length, (lb'.add o new.1 (some i) (some j)).2.at_ z) := by
          simp [Layout.add, Layout.at_]
        have a6 := a6 z
        have b6 := b6 z
        rw [Prog.layout, na z, nb z]
        simp only [Option.bind_eq_bind, Option.bind_some, hmean, List.length_map]
        rcases ia with _ | ia <;> rcases ib with _ | ib
        · exact absurd ⟨rfl, rfl⟩ hnn
        all_goals
          simp only [a6, b6, e]
          exact hz

/-- The links of a chain. -/
theorem layout_progs (C : NearCalc X A x0) (w : World ℝ) : ∀ (ps : List (List ℝ → Prog ℝ)) (H : List (((X → ℝ) × A) × Option ℕ))
    (l : Layout (X → ℝ)) (env0 : List (AFloat ℝ)) (Y : List ((X → ℝ) × A)),
    (∀ q ∈ H.map Prod.fst, C.Good q) → Calculus.Over (H.map Prod.fst) x0 env0 → alongProgs piecewiseSmooth w ps env0 →
    runProgsS C.sh ps ((H.map Prod.fst).map (NearCalc.tag x0)) = .ok (Y.map (NearCalc.tag x0)) →
    (∀ h ∈ H, Placed l h.1.1 h.2) → LayoutNear x0 l →
    ∃ (W : List (((X → ℝ) × A) × Option ℕ)) (l' : Layout (X → ℝ)), W.map Prod.fst = Y ∧ LayoutNear x0 l' ∧
      (∀ h ∈ W, Placed l' h.1.1 h.2) ∧ l.vals <+: l'.vals ∧
      ∀ᶠ z in 𝓝 x0, layoutProgs ps (H.map (nodeAt z)) (l.at_ z) = some (W.map (nodeAt z), l'.at_ z)
  | [], H, l, env0, Y, hG, ho, hal, hr, hpl, hln => by
      have h' : (H.map Prod.fst).map (NearCalc.tag x0) = Y.map (NearCalc.tag x0) := by injection hr
      have : H.map Prod.fst = Y := List.map_injective_iff.mpr (fun _ _ h => NearHom.tag_inj h) h'
      exact ⟨H, l, this, hln, hpl, List.prefix_rfl, .of_forall fun z => rfl⟩
  | p :: ps, H, l, env0, Y, hG, ho, hal, hr, hpl, hln => by
      set G := H.map Prod.fst with hGd
      rw [runProgsS] at hr
      have hfst : (G.map (NearCalc.tag x0)).map Prod.fst = G.map fun q => q.1 x0 := by rw [List.map_map]; rfl
      rw [hfst] at hr
      obtain ⟨⟨ε, he, hst⟩, hal1, hal2⟩ := hal
      rw [ho.2] at hst hal1 hal2
      rcases h1 : (p (G.map fun q => q.1 x0)).runS C.sh (G.map (NearCalc.tag x0)) with e | Y1
      · rw [h1] at hr; cases hr
      rw [h1, bind_ok_eq] at hr
      obtain ⟨Z, rfl, y2, y3⟩ := C.prog w _ G env0 Y1 hG ho hal1 h1
      obtain ⟨ys, s1, s2⟩ := y3.self_of_nhds env0 ho
      obtain ⟨V, l1, v1, v2, v3, v4, v5⟩ := layout_prog C w _ H l env0 Z hG ho hal1 h1 hpl hln
      subst v1
      obtain ⟨W, l', w1, w2, w3, w4, w5⟩ := layout_progs C w ps V l1 ys Y y2 s2 (hal2 ys (by rw [s1])) hr v3 v2
      have hnear : ∀ᶠ z in 𝓝 x0, ∀ q ∈ G, |q.1 z - q.1 x0| < ε := by
        have := fun q (hq : q ∈ G) => (C.cont q (hG q hq)).eventually (Metric.ball_mem_nhds (q.1 x0) he)
        have h2 : ∀ᶠ z in 𝓝 x0, ∀ q ∈ {q | q ∈ G}, q.1 z ∈ Metric.ball (q.1 x0) ε :=
          (Filter.eventually_all_finite (List.finite_toSet G)).mpr this
        filter_upwards [h2] with z hz q hq
        have := hz q hq
        rwa [Metric.mem_ball, Real.dist_eq] at this
      have hvi : ∀ i (h : i < env0.length) (h' : i < G.length), (env0[i]).v = (G[i]).1 x0 := by
        intro i h h'
        have := congrArg (fun l => l[i]?) ho.2
        simpa [h, h'] using this
      refine ⟨W, l', w1, w2, w3, v4.trans w4, ?_⟩
      filter_upwards [v5, w5, hnear] with z hz1 hz2 hz3
      have hpe : p ((H.map (nodeAt z)).map Prod.fst) = p (G.map fun q => q.1 x0) := by
        apply hst
        · simp [Calculus.over_length ho, hGd]
        · intro i h1 h2
          simp only [List.length_map] at h1
          rw [hvi i h2 (by rw [hGd, List.length_map]; exact h1)]
          simp only [List.getElem_map]
          have := hz3 (H[i]).1 (by rw [hGd]; exact List.mem_map_of_mem (List.getElem_mem h1))
          simpa [hGd, nodeAt] using this
      rw [layoutProgs, hpe, hz1]
      exact hz2

theorem places_near : ∀ (W : List (((X → ℝ) × A) × Option ℕ)) (l : Layout (X → ℝ)), (∀ h ∈ W, ContinuousAt h.1.1 x0) →
    (∀ h ∈ W, Placed l h.1.1 h.2) → LayoutNear x0 l →
    ∃ (ds : List ℕ) (l' : Layout (X → ℝ)), LayoutNear x0 l' ∧ l.vals <+: l'.vals ∧
      ∀ z, (l.at_ z).places (W.map (nodeAt z)) = (ds, l'.at_ z)
  | [], l, _, _, h => ⟨[], l, h, List.prefix_rfl, fun z => rfl⟩
  | y :: W, l, hc, hp, h => by
      obtain ⟨i, l1, a1, a2, -, -, -, a6⟩ := h.place (hc y (by simp)) (hp y (by simp))
      obtain ⟨ds, l2, b1, b2, b3⟩ := places_near W l1 (fun h hh => hc h (by simp [hh])) (fun h hh => (hp h (by simp [hh])).mono a2) a1
      refine ⟨i :: ds, l2, b1, a2.trans b2, fun z => ?_⟩
      rw [List.map_cons, Layout.places]
      have := a6 z
      simp only [nodeAt] at this ⊢
      rw [this]
      show (i :: ((l1.at_ z).places (W.map (nodeAt z))).1, ((l1.at_ z).places (W.map (nodeAt z))).2) = _
      rw [b3 z]

/-- The tapes near a point. -/
theorem tape_near {n m : ℕ} {x : Fin n → ℝ} {f : Func ℝ} {w : World ℝ} (hs : f.Along piecewiseSmooth w (duals x 0))
    {y : Fin m → ℝ} (hF : (f.evalFloat (List.ofFn x) w).1 = .ok (List.ofFn y)) :
    ∃ (l : Layout ((Fin n → ℝ) → ℝ)) (ds : List ℕ), LayoutNear x l ∧
      (List.ofFn fun i : Fin n => (fun z : Fin n → ℝ => z i)) <+: l.vals ∧
      ∀ᶠ z in 𝓝 x, f.layoutTape (List.ofFn z) = some ⟨List.range n, ds, l.ops, l.vals.map fun g => g z, true⟩ := by
  classical
  let C := semiCalc x
  let H : List ((((Fin n → ℝ) → ℝ) × ((Fin n → ℝ) → Set ℝ)) × Option ℕ) :=
    List.ofFn fun i : Fin n => ((fun z => z i, fun z => {z i - x i}), some i.val)
  let l0 : Layout ((Fin n → ℝ) → ℝ) := ⟨List.ofFn fun i : Fin n => (fun z => z i), []⟩
  have hHf : H.map Prod.fst = List.ofFn fun i : Fin n => ((fun z => z i, fun z => {z i - x i}) :
      ((Fin n → ℝ) → ℝ) × ((Fin n → ℝ) → Set ℝ)) := by rw [List.map_ofFn]; rfl
  have hGood : ∀ q ∈ H.map Prod.fst, C.Good q := by
    intro q hq
    rw [hHf] at hq
    obtain ⟨i, rfl⟩ := List.mem_ofFn.mp hq
    exact semi_input x i
  have hover : Calculus.Over (H.map Prod.fst) x (duals x 0) := by
    refine ⟨duals_ctx _ _, ?_⟩
    rw [duals_v, hHf, List.map_ofFn]
    rfl
  have hfst : ((H.map Prod.fst).map (NearCalc.tag x)).map Prod.fst = List.ofFn x := by
    rw [hHf, List.map_map, List.map_ofFn]
    rfl
  obtain ⟨Y', hY'⟩ : ∃ Y', runProgsS C.sh f.progs ((H.map Prod.fst).map (NearCalc.tag x)) = .ok Y' := by
    have h1 := Func.evalS_fst C.sh f ((H.map Prod.fst).map (NearCalc.tag x))
    have h2 := hF
    rw [Func.evalFloat_eq] at h2
    replace h2 : f.evalV (List.ofFn x) = _ := h2
    rw [hfst, h2] at h1
    unfold Func.evalS at h1
    rcases hr : runProgsS C.sh f.progs ((H.map Prod.fst).map (NearCalc.tag x)) with e | Y'
    · rw [hr] at h1; cases h1
    · exact ⟨Y', rfl⟩
  obtain ⟨Y, rfl, g1, -⟩ := C.progs w f.progs _ (duals x 0) Y' hGood hover hs hY'
  obtain ⟨W, l1, w1, w2, w3, w4, w5⟩ := layout_progs C w f.progs H l0 (duals x 0) Y hGood hover hs hY' (by
      intro h hh k hk
      obtain ⟨i, rfl⟩ := List.mem_ofFn.mp hh
      injection hk with hk
      subst hk
      show (List.ofFn _)[i.val]? = _
      rw [List.getElem?_ofFn, dif_pos i.2]) ⟨by
        intro g hg
        obtain ⟨i, rfl⟩ := List.mem_ofFn.mp hg
        exact (continuous_apply i).continuousAt, fun op hop => (by cases hop), fun op hop => (by cases hop)⟩
  obtain ⟨ds, l2, d1, d2, d3⟩ := places_near W l1 (fun h hh => C.cont _ (g1 _ (by rw [← w1]; exact List.mem_map_of_mem hh))) w3 w2
  refine ⟨l2, ds, d1, w4.trans d2, ?_⟩
  filter_upwards [w5] with z hz
  have e1 : (List.ofFn z).zipIdx.map (fun p => (p.1, some p.2)) = H.map (nodeAt z) := by
    apply List.ext_getElem
    · simp [H]
    · intro i h1 h2
      simp [H, nodeAt]
  have e2 : (⟨List.ofFn z, []⟩ : Layout ℝ) = l0.at_ z := by
    simp only [l0, Layout.at_, List.map_ofFn]
    rfl
  unfold Func.layoutTape
  rw [e1, e2, Func.layout_eq, hz]
  simp only [Option.bind_eq_bind, Option.bind_some, d3, List.length_ofFn]
  rfl

end Adv
