import Verif.Spec.NestedSteady
import Verif.Proof.NestedN

/-!
# Nested variables compute derivatives of all orders if no derivative is skipped
-/

set_option linter.unusedSectionVars false

namespace Adv
open scoped Adv Topology ContDiff
open Filter

section jets
variable {E : Type} [NormedAddCommGroup E] [NormedSpace ℝ E] {x0 : E} {g h u : E → ℝ}

/-! ### Steadiness -/

theorem steady_lit : ∀ (k : Nat) (c : ℝ), Nest.Steady k (Nest.lit k c)
  | 0, _ => trivial
  | k + 1, c => ⟨steady_lit k c, fun _ => (jetN_lit_zero k).symm⟩

theorem steady_zero {k : Nat} {a : Nest ℝ k} (h : Nest.Steady k a) : Nest.SteadyBelow 0 k a := by
  cases k <;> exact h

theorem steady_below : ∀ {m k : Nat} {a : Nest ℝ k}, Nest.Steady k a → Nest.SteadyBelow m k a
  | 0, _, _, h => steady_zero h
  | _ + 1, 0, _, _ => trivial
  | m + 1, k + 1, _, h => steady_below (m := m) (k := k) h.1

theorem below_succ : ∀ {m k : Nat} {a : Nest ℝ k}, Nest.SteadyBelow m k a → Nest.SteadyBelow (m + 1) k a
  | 0, 0, _, _ => trivial
  | 0, _ + 1, _, h => steady_zero h.1
  | _ + 1, 0, _, _ => trivial
  | m + 1, _ + 1, _, h => below_succ (m := m) h

theorem below_v {m k : Nat} {a : Nest ℝ (k + 1)} (h : Nest.SteadyBelow m (k + 1) a) : Nest.SteadyBelow m k (AFloat.v a) :=
  below_succ h

theorem jetN_mul_lit_zero {k : Nat} {d : Fin k → E} (hu : ContDiffAt ℝ ω u x0) (hg : ContDiffAt ℝ ω g x0)
    (h0 : jetN x0 k d g = Nest.lit k 0) : jetN x0 k d (fun z => u z * g z) = Nest.lit k 0 := by
  have h1 := jetN_op (x0 := x0) k d (o := .Mul) rfl hu hg
  refine Eq.trans h1.symm ?_
  rw [h0, ← jetN_const (x0 := x0) k d 0, jetN_op (x0 := x0) k d (o := .Mul) rfl hu contDiffAt_const]
  refine jetN_congr k d (Eventually.of_forall fun z => ?_)
  show u z * 0 = 0
  rw [mul_zero]

/-- Functions of a steady function. -/
theorem steady_comp : ∀ (k : Nat) (d : Fin k → E) {g r : E → ℝ} (u : E → ℝ), ContDiffAt ℝ ω g x0 → ContDiffAt ℝ ω u x0 → u x0 ≠ 0 →
    (∀ᶠ z in 𝓝 x0, ∀ e, fderiv ℝ r z e = u z * fderiv ℝ g z e) →
    Nest.Steady k (jetN x0 k d g) → Nest.Steady k (jetN x0 k d r)
  | 0, _, _, _, _, _, _, _, _, _ => trivial
  | k + 1, d, g, r, u, hg, hu, h0, hd, hs => by
      refine ⟨steady_comp k (Fin.tail d) u hg hu h0 hd hs.1, fun hv => ?_⟩
      have hv : Nest.val k (jetN x0 k (Fin.tail d) fun z => fderiv ℝ r z (d 0)) = 0 := hv
      show (jetN x0 k (Fin.tail d) fun z => fderiv ℝ r z (d 0)) = _
      have he : (fun z => fderiv ℝ r z (d 0)) =ᶠ[𝓝 x0] fun z => u z * fderiv ℝ g z (d 0) := hd.mono fun z hz => hz _
      rw [jetN_val, he.eq_of_nhds] at hv
      rw [jetN_congr k _ he]
      refine jetN_mul_lit_zero hu (jetN_smooth_dir hg _) (hs.2 ?_)
      show Nest.val k (jetN x0 k (Fin.tail d) fun z => fderiv ℝ g z (d 0)) = 0
      rw [jetN_val]
      exact (mul_eq_zero.mp hv).resolve_left h0

theorem steady_sq {k : Nat} {d : Fin k → E} (hg : ContDiffAt ℝ ω g x0) (h0 : g x0 ≠ 0) (hs : Nest.Steady k (jetN x0 k d g)) :
    Nest.Steady k (jetN x0 k d fun z => g z ^ (2 : ℤ)) := by
  refine steady_comp k d (fun z => 2 * g z) hg (contDiffAt_const.mul hg) (mul_ne_zero two_ne_zero h0) ?_ hs
  filter_upwards [jetN_eventually_diff hg] with z hz e
  have : (fun z => g z ^ (2 : ℤ)) = fun z => g z * g z := by
    funext z
    rw [show (2 : ℤ) = ((2 : ℕ) : ℤ) from rfl, zpow_natCast, sq]
  rw [this]
  refine (congrArg (· e) (hz.hasFDerivAt.mul hz.hasFDerivAt).fderiv).trans ?_
  show g z * fderiv ℝ g z e + g z * fderiv ℝ g z e = 2 * g z * fderiv ℝ g z e
  ring

theorem steady_sqrt {k : Nat} {d : Fin k → E} (hg : ContDiffAt ℝ ω g x0) (h0 : 0 < g x0) (hs : Nest.Steady k (jetN x0 k d g)) :
    Nest.Steady k (jetN x0 k d fun z => Real.sqrt (g z)) := by
  have hr : ContDiffAt ℝ ω (fun z => Real.sqrt (g z)) x0 := hg.sqrt h0.ne'
  have hr0 : Real.sqrt (g x0) ≠ 0 := Real.sqrt_ne_zero'.mpr h0
  refine steady_comp k d (fun z => 1 / (2 * Real.sqrt (g z))) hg
    (contDiffAt_const.div (contDiffAt_const.mul hr) (mul_ne_zero two_ne_zero hr0)) ?_ ?_ hs
  · exact one_div_ne_zero (mul_ne_zero two_ne_zero hr0)
  · filter_upwards [jetN_eventually_diff hg, hg.continuousAt.eventually (lt_mem_nhds h0)] with z hz h1 e
    exact congrArg (· e) (hz.hasFDerivAt.sqrt h1.ne').fderiv

theorem steady_sub_one {k : Nat} {d : Fin k → E} (hg : ContDiffAt ℝ ω g x0) (hs : Nest.Steady k (jetN x0 k d g)) :
    Nest.Steady k (jetN x0 k d fun z => g z - 1) := by
  refine steady_comp k d (fun _ => 1) hg contDiffAt_const one_ne_zero ?_ hs
  refine Eventually.of_forall fun z e => ?_
  rw [fderiv_sub_const, one_mul]

/-! ### Operations -/

/-- The operands are in the domain, for `k` levels. -/
def DomN (x0 : E) (k : Nat) (o : OpCode) (g h : E → ℝ) : Prop :=
  match o with
  | .Powf => 0 < g x0 ∨ ∃ n : ℤ, h = (fun _ => (n : ℝ)) ∧ (g x0 ≠ 0 ∨ (k : ℤ) ≤ n)
  | .Div => h x0 ≠ 0
  | .Tan => Real.cos (g x0) ≠ 0
  | .Ln => 0 < g x0
  | .Asin | .Acos => (-1 < g x0 ∧ g x0 < 1) ∧ (g x0 ≠ 0 ∨ k ≤ 3)
  | .Atan => g x0 ≠ 0 ∨ k ≤ 3
  | .Abs | .Nop | .Const => False
  | _ => True

theorem DomN.pred {k : Nat} {o : OpCode} (hd : DomN x0 (k + 1) o g h) : DomN x0 k o g h := by
  cases o <;> try exact hd
  case Asin => exact ⟨hd.1, hd.2.imp id fun h => by omega⟩
  case Acos => exact ⟨hd.1, hd.2.imp id fun h => by omega⟩
  case Atan => exact Or.imp id (fun h => by omega) hd
  rcases hd with hd | ⟨n, h1, h2⟩
  · exact .inl hd
  · exact .inr ⟨n, h1, h2.imp id fun h => by push_cast at h; omega⟩

/-- The domain as in C01. -/
theorem DomN.smooth {k : Nat} {o : OpCode} (hd : DomN x0 (k + 1) o g h) : ∃ arg : Option (Arg ℝ), arityOk o arg = true ∧
    (∀ c, arg = some (.lit c) → h = fun _ => c) ∧ (arg = none → o.isUnary = true) ∧
    SmoothOp o arg (g x0) (arg.map fun _ => h x0) ∧ o ≠ .Abs := by
  cases o
  case Abs => exact hd.elim
  case Nop => exact hd.elim
  case Const => exact hd.elim
  case Powf =>
    rcases hd with hd | ⟨n, h1, h2⟩
    · exact ⟨some (.var 0), rfl, by simp, by simp, .inl hd, by simp⟩
    · refine ⟨some (.lit n), rfl, ?_, by simp, .inr ⟨n, rfl, h2.imp id fun h => by push_cast at h; omega⟩, by simp⟩
      intro c hc
      injection hc with hc; injection hc with hc
      rw [h1, hc]
  case Div => exact ⟨some (.var 0), rfl, by simp, by simp, fun e => hd (by injection e), by simp⟩
  case Add => exact ⟨some (.var 0), rfl, by simp, by simp, trivial, by simp⟩
  case Sub => exact ⟨some (.var 0), rfl, by simp, by simp, trivial, by simp⟩
  case Mul => exact ⟨some (.var 0), rfl, by simp, by simp, trivial, by simp⟩
  case Asin => exact ⟨none, rfl, by simp, fun _ => rfl, hd.1, by simp⟩
  case Acos => exact ⟨none, rfl, by simp, fun _ => rfl, hd.1, by simp⟩
  case Atan => exact ⟨none, rfl, by simp, fun _ => rfl, trivial, by simp⟩
  all_goals exact ⟨none, rfl, by simp, fun _ => rfl, hd, by simp⟩

/-- Derivatives, as the code computes them. -/
theorem DomN.deriv {k : Nat} {o : OpCode} (hd : DomN x0 (k + 1) o g h) (hg : ContDiffAt ℝ ω g x0) (hh : ContDiffAt ℝ ω h x0) :
    ∀ᶠ z in 𝓝 x0, ∀ e, fderiv ℝ (fun z => zfun o (g z) (h z)) z e = ffun o (g z) (h z) (fderiv ℝ g z e) (fderiv ℝ h z e) := by
  obtain ⟨arg, h1, h2, h3, h4, h5⟩ := hd.smooth
  cases arg with
  | some b =>
    filter_upwards [SmoothOp.eventually h1 hg.continuousAt hh.continuousAt h4, jetN_eventually_diff hg, jetN_eventually_diff hh] with
      z z1 z2 z3 e
    exact (zfun_jet h1 z2 z3 (by simp) h2 z1 h5).2.symm
  | none =>
    have hu := h3 rfl
    filter_upwards [SmoothOp.eventually h1 hg.continuousAt hg.continuousAt h4, jetN_eventually_diff hg] with z z1 z2 e
    have := (zfun_jet (e := e) h1 z2 z2 (fun _ => rfl) (by simp) z1 h5).2.symm
    cases o <;> first | exact this | cases hu

theorem sq_contDiff (hg : ContDiffAt ℝ ω g x0) : ContDiffAt ℝ ω (fun z => g z ^ (2 : ℤ)) x0 := by
  have : (fun z => g z ^ (2 : ℤ)) = fun z => g z ^ 2 := by funext z; norm_cast
  rw [this]
  exact hg.pow 2

theorem powInt_contDiff (hg : ContDiffAt ℝ ω g x0) (n : ℤ) (h0 : g x0 ≠ 0 ∨ 0 ≤ n) : ContDiffAt ℝ ω (fun z => g z ^ (n : ℝ)) x0 := by
  have : (fun z => g z ^ (n : ℝ)) = fun z => g z ^ n := by funext z; rw [Real.rpow_intCast]
  rcases h0 with h0 | h0
  · rcases n with n | n
    · rw [this]
      have : (fun z => g z ^ (Int.ofNat n)) = fun z => g z ^ n := by
        funext z; rw [Int.ofNat_eq_natCast, zpow_natCast]
      rw [this]
      exact hg.pow n
    · rw [this]
      have : (fun z => g z ^ (Int.negSucc n)) = fun z => (g z ^ (n + 1))⁻¹ := by
        funext z; rw [zpow_negSucc]
      rw [this]
      exact (hg.pow (n + 1)).inv (pow_ne_zero _ h0)
  · obtain ⟨m, rfl⟩ := Int.eq_ofNat_of_zero_le h0
    rw [this]
    have : (fun z => g z ^ (m : ℤ)) = fun z => g z ^ m := by funext z; rw [zpow_natCast]
    rw [this]
    exact hg.pow m

theorem DomN.contDiff {k : Nat} {o : OpCode} (hd : DomN x0 k o g h) (hg : ContDiffAt ℝ ω g x0) (hh : ContDiffAt ℝ ω h x0) :
    ContDiffAt ℝ ω (fun z => zfun o (g z) (h z)) x0 := by
  cases o
  case Abs => exact hd.elim
  case Nop => exact hd.elim
  case Const => exact hd.elim
  case Add => exact hg.add hh
  case Sub => exact hg.sub hh
  case Mul => exact hg.mul hh
  case Sin => exact hg.sin
  case Cos => exact hg.cos
  case Exp => exact hg.exp
  case Div => exact hg.div hh hd
  case Ln => exact hg.log (ne_of_gt hd)
  case Tan => exact (Real.contDiffAt_tan.mpr hd).comp x0 hg
  case Atan => exact Real.contDiff_arctan.contDiffAt.comp x0 hg
  case Asin => exact (Real.contDiffAt_arcsin hd.1.1.ne' hd.1.2.ne).comp x0 hg
  case Acos => exact (Real.contDiffAt_arccos hd.1.1.ne' hd.1.2.ne).comp x0 hg
  case Powf =>
    rcases hd with hd | ⟨n, rfl, hn⟩
    · exact hg.rpow hh hd.ne'
    · exact powInt_contDiff hg n (hn.imp id fun h => by omega)

/-- Operations of nested scalars. -/
theorem zfun_nestN {k : Nat} {o : OpCode} (hd : DomN x0 (k + 1) o g h) (a b : Nest ℝ (k + 1)) :
    zfun o a b = AFloat.new (zfun o (AFloat.v a) (AFloat.v b)) (ffun o (AFloat.v a) (AFloat.v b) (AFloat.dv a) (AFloat.dv b)) := by
  cases o <;> first | rfl | exact hd.elim

/-- The statement of `jetN_steady` for one number of levels. -/
def JetNSteady (x0 : E) (k : Nat) : Prop := ∀ (d : Fin k → E) {o : OpCode} {g h : E → ℝ}, DomN x0 k o g h →
  ContDiffAt ℝ ω g x0 → ContDiffAt ℝ ω h x0 → Nest.SteadyOp k o (jetN x0 k d g) (jetN x0 k d h) →
  zfun o (jetN x0 k d g) (jetN x0 k d h) = jetN x0 k d fun z => zfun o (g z) (h z)

theorem SteadyOp.pred {k : Nat} {o : OpCode} {a b : Nest ℝ (k + 1)} (hs : Nest.SteadyOp (k + 1) o a b) :
    Nest.SteadyOp k o (AFloat.v a) (AFloat.v b) := by
  cases o <;> try trivial
  case Powf => exact ⟨hs.1.1, hs.2.1⟩
  case Div => exact below_v (m := 1) hs
  case Ln => exact below_v (m := 2) hs
  case Tan => exact below_v (m := 1) (a := Flt.cos a) hs
  case Asin => exact ⟨below_v (m := 1) hs.1, below_v (m := 1) (a := Flt.one -ᶠ a *ᶠ a) hs.2⟩
  case Acos => exact ⟨below_v (m := 1) hs.1, below_v (m := 1) (a := Flt.one -ᶠ a *ᶠ a) hs.2⟩
  case Atan => exact ⟨below_v (m := 1) hs.1, below_v (m := 2) (a := Flt.one +ᶠ a *ᶠ a) hs.2⟩

section step
variable {k : Nat} (ih : JetNSteady x0 k) {d : Fin k → E} (hg : ContDiffAt ℝ ω g x0)

theorem jetN_one : (Flt.one : Nest ℝ k) = jetN x0 k d fun _ => 1 := by
  rw [jetN_const, jetN_lit_one]

theorem jetN_ofInt : ∀ (k : Nat) (n : ℤ), (Flt.ofInt n : Nest ℝ k) = Nest.lit k (n : ℝ)
  | 0, _ => rfl
  | k + 1, n => by
      show AFloat.ofScalar (Flt.ofInt n : Nest ℝ k) = AFloat.ofScalar (Nest.lit k (n : ℝ))
      rw [jetN_ofInt k n]

theorem jetN_half : ∀ (k : Nat), (Flt.half : Nest ℝ k) = Nest.lit k (1 / 2 : ℝ)
  | 0 => rfl
  | k + 1 => by
      show AFloat.ofScalar (Flt.half : Nest ℝ k) = AFloat.ofScalar (Nest.lit k (1 / 2 : ℝ))
      rw [jetN_half k]

include ih hg

theorem jetN_sq (h0 : g x0 ≠ 0 ∨ (k : ℤ) ≤ 2) (hs : Nest.Steady k (jetN x0 k d g)) :
    Flt.powi (jetN x0 k d g) 2 = jetN x0 k d fun z => g z ^ (2 : ℤ) := by
  cases k with
  | zero => rfl
  | succ k =>
    have h1 : Flt.powi (jetN x0 (k + 1) d g) 2 = zfun .Powf (jetN x0 (k + 1) d g) (Nest.lit (k + 1) ((2 : ℤ) : ℝ)) := by
      show zfun .Powf (jetN x0 (k + 1) d g) (AFloat.ofScalar (Flt.ofInt 2 : Nest ℝ k)) = _
      rw [jetN_ofInt]
      rfl
    have h2 : Nest.SteadyOp (k + 1) .Powf (jetN x0 (k + 1) d g) (jetN x0 (k + 1) d fun _ => ((2 : ℤ) : ℝ)) := by
      refine ⟨hs, ?_⟩
      rw [jetN_const]
      exact steady_lit _ _
    rw [h1, ← jetN_const (x0 := x0) (k + 1) d, ih d (o := .Powf) (.inr ⟨2, rfl, h0⟩) hg contDiffAt_const h2]
    refine jetN_congr _ _ (Eventually.of_forall fun z => ?_)
    show g z ^ ((2 : ℤ) : ℝ) = g z ^ (2 : ℤ)
    rw [Real.rpow_intCast]

theorem jetN_sqrt (h0 : 0 < g x0) (hs : Nest.Steady k (jetN x0 k d g)) :
    Flt.sqrt (jetN x0 k d g) = jetN x0 k d fun z => Real.sqrt (g z) := by
  cases k with
  | zero => rfl
  | succ k =>
    have h1 : Flt.sqrt (jetN x0 (k + 1) d g) = zfun .Powf (jetN x0 (k + 1) d g) (Nest.lit (k + 1) (1 / 2 : ℝ)) := by
      show zfun .Powf (jetN x0 (k + 1) d g) (AFloat.ofScalar (Flt.half : Nest ℝ k)) = _
      rw [jetN_half]
      rfl
    have h2 : Nest.SteadyOp (k + 1) .Powf (jetN x0 (k + 1) d g) (jetN x0 (k + 1) d fun _ => (1 / 2 : ℝ)) := by
      refine ⟨hs, ?_⟩
      rw [jetN_const]
      exact steady_lit _ _
    rw [h1, ← jetN_const (x0 := x0) (k + 1) d, ih d (o := .Powf) (.inl h0) hg contDiffAt_const h2]
    refine jetN_congr _ _ (Eventually.of_forall fun z => ?_)
    show g z ^ (1 / 2 : ℝ) = Real.sqrt (g z)
    rw [Real.sqrt_eq_rpow]

omit ih

theorem jetN_mul (hh : ContDiffAt ℝ ω h x0) : Flt.mul (jetN x0 k d g) (jetN x0 k d h) = jetN x0 k d fun z => g z * h z :=
  jetN_op k d (o := .Mul) rfl hg hh
theorem jetN_add (hh : ContDiffAt ℝ ω h x0) : Flt.add (jetN x0 k d g) (jetN x0 k d h) = jetN x0 k d fun z => g z + h z :=
  jetN_op k d (o := .Add) rfl hg hh
theorem jetN_sub (hh : ContDiffAt ℝ ω h x0) : Flt.sub (jetN x0 k d g) (jetN x0 k d h) = jetN x0 k d fun z => g z - h z :=
  jetN_op k d (o := .Sub) rfl hg hh
theorem jetN_cos : Flt.cos (jetN x0 k d g) = jetN x0 k d fun z => Real.cos (g z) :=
  jetN_op k d (o := .Cos) rfl hg hg

include ih

theorem jetN_div (hh : ContDiffAt ℝ ω h x0) (h0 : h x0 ≠ 0) (hs : Nest.SteadyBelow 1 k (jetN x0 k d h)) :
    Flt.div (jetN x0 k d g) (jetN x0 k d h) = jetN x0 k d fun z => g z / h z :=
  ih d (o := .Div) h0 hg hh hs

omit ih hg

theorem jetN_eq_zero (d : Fin k → E) (g : E → ℝ) : Flt.eq (jetN x0 k d g) (Flt.zero : Nest ℝ k) = decide (g x0 = 0) := by
  induction k generalizing g with
  | zero => rfl
  | succ k ihk => exact ihk (Fin.tail d) g

/-- The conditional of operation.rs:72-81 on jets. -/
theorem jetN_if {A : Nest ℝ k} (hu : ContDiffAt ℝ ω u x0) (hg : ContDiffAt ℝ ω g x0) (hA : A = jetN x0 k d u)
    (hst : g x0 = 0 → jetN x0 k d g = Nest.lit k 0) :
    (if !(Flt.eq (jetN x0 k d g) Flt.zero) then Flt.mul A (jetN x0 k d g) else Flt.zero) = jetN x0 k d fun z => u z * g z := by
  rw [jetN_eq_zero]
  by_cases h0 : g x0 = 0
  · rw [jetN_mul_lit_zero hu hg (hst h0), jetN_lit_zero]
    simp only [h0, decide_true, Bool.not_true, Bool.false_eq_true, if_false]
  · simp only [h0, decide_false, Bool.not_false, if_true]
    rw [hA]
    exact jetN_mul hu hg

end step

theorem square_pos (hg : -1 < g x0 ∧ g x0 < 1) : 0 < 1 - g x0 ^ (2 : ℤ) := by
  have : g x0 ^ (2 : ℤ) = g x0 ^ 2 := by norm_cast
  rw [this]
  nlinarith [hg.1, hg.2]

theorem mul_self_sub (k : Nat) (d : Fin k → E) (c : ℝ) (g : E → ℝ) : (jetN x0 k d fun z => c - g z * g z) =
    jetN x0 k d fun z => c - g z ^ (2 : ℤ) := by
  refine jetN_congr k d (Eventually.of_forall fun z => ?_)
  show c - g z * g z = c - g z ^ (2 : ℤ)
  rw [zpow_ofNat, sq]

theorem mul_self_add (k : Nat) (d : Fin k → E) (c : ℝ) (g : E → ℝ) : (jetN x0 k d fun z => c + g z * g z) =
    jetN x0 k d fun z => c + g z ^ (2 : ℤ) := by
  refine jetN_congr k d (Eventually.of_forall fun z => ?_)
  show c + g z * g z = c + g z ^ (2 : ℤ)
  rw [zpow_ofNat, sq]

/-- Derivatives of operations on jets. -/
theorem jetN_ffun {k : Nat} (ih : JetNSteady x0 k) (d : Fin (k + 1) → E) {o : OpCode} (hd : DomN x0 (k + 1) o g h)
    (hg : ContDiffAt ℝ ω g x0) (hh : ContDiffAt ℝ ω h x0)
    (hs : Nest.SteadyOp (k + 1) o (jetN x0 (k + 1) d g) (jetN x0 (k + 1) d h)) {g' h' : E → ℝ}
    (hg' : g' = fun z => fderiv ℝ g z (d 0)) (hh' : h' = fun z => fderiv ℝ h z (d 0)) :
    ffun o (jetN x0 k (Fin.tail d) g) (jetN x0 k (Fin.tail d) h) (jetN x0 k (Fin.tail d) g') (jetN x0 k (Fin.tail d) h') =
      jetN x0 k (Fin.tail d) fun z => ffun o (g z) (h z) (g' z) (h' z) := by
  have cg : ContDiffAt ℝ ω g' x0 := hg' ▸ jetN_smooth_dir hg (d 0)
  have ch : ContDiffAt ℝ ω h' x0 := hh' ▸ jetN_smooth_dir hh (d 0)
  have c1 : ∀ c : ℝ, ContDiffAt ℝ ω (fun _ : E => c) x0 := fun c => contDiffAt_const
  have hdiv : ∀ {f q : E → ℝ}, ContDiffAt ℝ ω f x0 → ContDiffAt ℝ ω q x0 → q x0 ≠ 0 → ContDiffAt ℝ ω (fun z => f z / q z) x0 :=
    fun hf hq h0 => hf.div hq h0
  have hcirc : ∀ {j : Nat} (d : Fin j → E), (Flt.one : Nest ℝ j) -ᶠ jetN x0 j d g *ᶠ jetN x0 j d g =
      jetN x0 j d fun z => 1 - g z ^ (2 : ℤ) := by
    intro j d
    rw [jetN_mul hg hg, jetN_one (x0 := x0) (d := d), jetN_sub (c1 1) (hg.mul hg), mul_self_sub]
  have hsphere : ∀ {j : Nat} (d : Fin j → E), (Flt.one : Nest ℝ j) +ᶠ jetN x0 j d g *ᶠ jetN x0 j d g =
      jetN x0 j d fun z => 1 + g z ^ (2 : ℤ) := by
    intro j d
    rw [jetN_mul hg hg, jetN_one (x0 := x0) (d := d), jetN_add (c1 1) (hg.mul hg), mul_self_add]
  cases o
  case Abs => exact hd.elim
  case Nop => exact hd.elim
  case Const => exact hd.elim
  case Add => exact jetN_add cg ch
  case Sub => exact jetN_sub cg ch
  case Mul =>
    simp only [ffun]
    rw [jetN_mul cg hh, jetN_mul hg ch, jetN_add (cg.mul hh) (hg.mul ch)]
    rfl
  case Sin =>
    simp only [ffun]
    rw [jetN_cos hg, jetN_mul cg hg.cos]
    rfl
  case Cos =>
    simp only [ffun]
    rw [show Flt.sin (jetN x0 k (Fin.tail d) g) = jetN x0 k (Fin.tail d) fun z => Real.sin (g z) from
      jetN_op k _ (o := .Sin) rfl hg hg, jetN_neg (jetN_op k) _ cg, jetN_mul cg.neg hg.sin]
    rfl
  case Exp =>
    simp only [ffun]
    rw [show Flt.exp (jetN x0 k (Fin.tail d) g) = jetN x0 k (Fin.tail d) fun z => Real.exp (g z) from
      jetN_op k _ (o := .Exp) rfl hg hg, jetN_mul cg hg.exp]
    rfl
  case Div =>
    have h0 : h x0 ≠ 0 := hd
    have hst : Nest.Steady k (jetN x0 k (Fin.tail d) h) := hs
    simp only [ffun]
    rw [jetN_mul cg hh, jetN_mul hg ch, jetN_sub (cg.mul hh) (hg.mul ch), jetN_sq ih hh (.inl h0) hst,
      jetN_div ih ((cg.mul hh).sub (hg.mul ch)) (sq_contDiff hh) (zpow_ne_zero 2 h0) (steady_below (steady_sq hh h0 hst))]
    rfl
  case Ln =>
    have h0 : g x0 ≠ 0 := ne_of_gt hd
    simp only [ffun]
    rw [jetN_one (x0 := x0) (d := Fin.tail d), jetN_div ih (c1 1) hg h0 hs, jetN_mul cg (hdiv (c1 1) hg h0)]
    rfl
  case Tan =>
    have h0 : Real.cos (g x0) ≠ 0 := hd
    have hst : Nest.Steady k (jetN x0 k (Fin.tail d) fun z => Real.cos (g z)) := by
      have : Nest.SteadyBelow 1 (k + 1) (Flt.cos (jetN x0 (k + 1) d g)) := hs
      rw [jetN_cos hg] at this
      exact this
    simp only [ffun]
    rw [jetN_one (x0 := x0) (d := Fin.tail d), jetN_cos hg, jetN_sq ih hg.cos (.inl h0) hst,
      jetN_div ih (c1 1) (sq_contDiff hg.cos) (zpow_ne_zero 2 h0) (steady_below (steady_sq hg.cos h0 hst)),
      jetN_mul cg (hdiv (c1 1) (sq_contDiff hg.cos) (zpow_ne_zero 2 h0))]
    rfl
  case Atan =>
    have h0 : (1 : ℝ) + g x0 ^ (2 : ℤ) ≠ 0 := by
      rw [zpow_ofNat]
      positivity
    have hst : Nest.Steady k (jetN x0 k (Fin.tail d) g) := hs.1
    have hst2 : Nest.SteadyBelow 1 k (jetN x0 k (Fin.tail d) fun z => 1 + g z ^ (2 : ℤ)) := by
      have : Nest.SteadyBelow 2 (k + 1) (Flt.one +ᶠ jetN x0 (k + 1) d g *ᶠ jetN x0 (k + 1) d g) := hs.2
      rw [hsphere] at this
      exact this
    simp only [ffun]
    rw [jetN_sq ih hg (Or.imp id (fun h => by omega) hd) hst, jetN_one (x0 := x0) (d := Fin.tail d),
      jetN_add (c1 1) (sq_contDiff hg), jetN_div ih cg ((c1 1).add (sq_contDiff hg)) h0 hst2]
    rfl
  case Asin =>
    have h0 := square_pos hd.1
    have hst : Nest.Steady k (jetN x0 k (Fin.tail d) g) := hs.1
    have hst2 : Nest.Steady k (jetN x0 k (Fin.tail d) fun z => 1 - g z ^ (2 : ℤ)) := by
      have : Nest.SteadyBelow 1 (k + 1) (Flt.one -ᶠ jetN x0 (k + 1) d g *ᶠ jetN x0 (k + 1) d g) := hs.2
      rw [hcirc] at this
      exact this
    have cs := (c1 1).sub (sq_contDiff hg)
    simp only [ffun]
    rw [jetN_sq ih hg (hd.2.imp id (fun h => by omega)) hst, jetN_one (x0 := x0) (d := Fin.tail d),
      jetN_sub (c1 1) (sq_contDiff hg), jetN_sqrt ih cs h0 hst2,
      jetN_div ih cg (cs.sqrt h0.ne') (Real.sqrt_ne_zero'.mpr h0) (steady_below (steady_sqrt cs h0 hst2))]
    rfl
  case Acos =>
    have h0 := square_pos hd.1
    have hst : Nest.Steady k (jetN x0 k (Fin.tail d) g) := hs.1
    have hst2 : Nest.Steady k (jetN x0 k (Fin.tail d) fun z => 1 - g z ^ (2 : ℤ)) := by
      have : Nest.SteadyBelow 1 (k + 1) (Flt.one -ᶠ jetN x0 (k + 1) d g *ᶠ jetN x0 (k + 1) d g) := hs.2
      rw [hcirc] at this
      exact this
    have cs := (c1 1).sub (sq_contDiff hg)
    simp only [ffun]
    rw [jetN_sq ih hg (hd.2.imp id (fun h => by omega)) hst, jetN_one (x0 := x0) (d := Fin.tail d),
      jetN_sub (c1 1) (sq_contDiff hg), jetN_sqrt ih cs h0 hst2, jetN_neg (jetN_op k) _ cg,
      jetN_div ih cg.neg (cs.sqrt h0.ne') (Real.sqrt_ne_zero'.mpr h0) (steady_below (steady_sqrt cs h0 hst2))]
    rfl
  case Powf =>
    obtain ⟨⟨s1, s2⟩, ⟨t1, t2⟩⟩ := hs
    have s2 : g' x0 = 0 → jetN x0 k (Fin.tail d) g' = Nest.lit k 0 := by
      intro h0
      rw [hg'] at h0 ⊢
      exact s2 ((jetN_val k (Fin.tail d) _).trans h0)
    have t2 : h' x0 = 0 → jetN x0 k (Fin.tail d) h' = Nest.lit k 0 := by
      intro h0
      rw [hh'] at h0 ⊢
      exact t2 ((jetN_val k (Fin.tail d) _).trans h0)
    have s1 : Nest.Steady k (jetN x0 k (Fin.tail d) g) := s1
    have t1 : Nest.Steady k (jetN x0 k (Fin.tail d) h) := t1
    have hf : (fun z => ffun .Powf (g z) (h z) (g' z) (h' z)) =
        fun z => h z * g z ^ (h z - 1) * g' z + Real.log (g z) * g z ^ (h z) * h' z := by
      funext z
      exact ffun_powf _ _ _ _
    rw [hf]
    have ch1 : ContDiffAt ℝ ω (fun z => h z - 1) x0 := hh.sub (c1 1)
    have hm1 : Flt.sub (jetN x0 k (Fin.tail d) h) Flt.one = jetN x0 k (Fin.tail d) fun z => h z - 1 := by
      rw [jetN_one (x0 := x0) (d := Fin.tail d), jetN_sub hh (c1 1)]
    have hdom1 : DomN x0 k .Powf g fun z => h z - 1 := by
      rcases hd with hd | ⟨n, rfl, hn⟩
      · exact .inl hd
      · refine .inr ⟨n - 1, by push_cast; rfl, hn.imp id fun h => by push_cast at h; omega⟩
    have cp1 : ContDiffAt ℝ ω (fun z => g z ^ (h z - 1)) x0 := hdom1.contDiff hg ch1
    have hp1 : Flt.powf (jetN x0 k (Fin.tail d) g) (jetN x0 k (Fin.tail d) fun z => h z - 1) =
        jetN x0 k (Fin.tail d) fun z => g z ^ (h z - 1) :=
      ih (Fin.tail d) (o := .Powf) hdom1 hg ch1 ⟨s1, steady_sub_one hh t1⟩
    simp only [ffun]
    rw [hm1, hp1, jetN_if (hh.mul cp1) cg (jetN_mul hh cp1) s2]
    rcases hd with hd | ⟨n, rfl, hn⟩
    · have hdom : DomN x0 k .Powf g h := .inl hd
      have cp : ContDiffAt ℝ ω (fun z => g z ^ h z) x0 := hdom.contDiff hg hh
      have hp : Flt.powf (jetN x0 k (Fin.tail d) g) (jetN x0 k (Fin.tail d) h) = jetN x0 k (Fin.tail d) fun z => g z ^ h z :=
        ih (Fin.tail d) (o := .Powf) hdom hg hh ⟨s1, t1⟩
      have cl : ContDiffAt ℝ ω (fun z => Real.log (g z)) x0 := hg.log hd.ne'
      have hl : Flt.ln (jetN x0 k (Fin.tail d) g) = jetN x0 k (Fin.tail d) fun z => Real.log (g z) :=
        ih (Fin.tail d) (o := .Ln) hd hg hg (steady_below s1)
      rw [hp, hl, jetN_if (cl.mul cp) ch (jetN_mul cl cp) t2, jetN_add ((hh.mul cp1).mul cg) ((cl.mul cp).mul ch)]
    · have h0 : h' = fun _ => 0 := by
        rw [hh']
        funext z
        rw [fderiv_const_apply]
        rfl
      subst h0
      rw [jetN_eq_zero]
      simp only [decide_true, Bool.not_true, Bool.false_eq_true, if_false]
      rw [← jetN_lit_zero, ← jetN_const (x0 := x0) k (Fin.tail d) 0, jetN_add ((hh.mul cp1).mul cg) (c1 0)]
      refine jetN_congr _ _ (Eventually.of_forall fun z => ?_)
      show _ + (0 : ℝ) = _ + _ * (0 : ℝ)
      rw [mul_zero]

theorem jetN_steady : ∀ k : Nat, JetNSteady x0 k
  | 0, _, o, g, h, _, _, _, _ => rfl
  | k + 1, d, o, g, h, ho, hg, hh, hs => by
      have ih : JetNSteady x0 k := jetN_steady k
      have hD : jetN x0 k (Fin.tail d) (fun z => fderiv ℝ (fun z => zfun o (g z) (h z)) z (d 0)) =
          jetN x0 k (Fin.tail d) fun z => ffun o (g z) (h z) (fderiv ℝ g z (d 0)) (fderiv ℝ h z (d 0)) := by
        apply jetN_congr
        filter_upwards [ho.deriv hg hh] with z hz
        exact hz _
      rw [zfun_nestN ho, jetN_succ k d fun z => zfun o (g z) (h z), hD]
      refine congrArg₂ AFloat.new ?_ (jetN_ffun ih d ho hg hh hs rfl rfl)
      exact ih (Fin.tail d) ho.pred hg hh (SteadyOp.pred hs)

/-! ### Programs -/

theorem domN_of {k : Nat} {o : OpCode} {arg : Option (Arg ℝ)} (ho : arityOk o arg = true) (hlit : ∀ c, arg = some (.lit c) → h = fun _ => c)
    (hs : SmoothOpN k o arg (g x0) (arg.map fun _ => h x0)) : DomN x0 k o g h := by
  cases o <;> cases arg <;> simp only [arityOk, OpCode.isUnary, OpCode.isBinary, Bool.false_eq_true] at ho <;>
    try first | trivial | exact hs
  case Div => exact fun e => hs (by simp [e])
  case Powf b =>
    rcases hs with hs | ⟨n, hn, hs⟩
    · exact .inl hs
    · exact .inr ⟨n, hlit _ hn, hs⟩

theorem nestN_prog_steady {k0 : Nat} {F : Type} (up : Nest ℝ k0 → F) (d : Fin (k0 + 1) → E) (w : World ℝ) (w' : World F) (p : Prog ℝ) :
    ∀ (G : List (E → ℝ)) (env0 : List (AFloat ℝ)), (∀ g ∈ G, ContDiffAt ℝ ω g x0) → OverF G x0 env0 →
    p.Along (smoothN (k0 + 1)) w env0 → (p.liftN k0).SteadyN up w' (G.map (jetA x0 k0 d)) → (∃ y, (p.run env0 w).1 = .ok y) → NestNOk up x0 d w w' p G := by
  induction p with
  | panic => rintro G env0 hG ho hal hst ⟨y, hy⟩; cases hy
  | ret outs =>
    rintro G env0 hG ho hal hst ⟨y, hy⟩
    obtain ⟨Y, h1, h2, h3⟩ := outsN k0 d hG ho outs y hy
    refine ⟨Y, h1, ?_, Eventually.of_forall fun z env ho => ?_⟩
    · show (M.lift ((outs.map (Arg.liftN k0)).mapM (Arg.get (G.map (jetA x0 k0 d)))) : M (World F) _) w' = _
      rw [M.lift_apply, h2]
    · obtain ⟨ys, k1, k2⟩ := h3 z env ho
      exact ⟨ys, by rw [Prog.run, M.lift_apply, k1], k2⟩
  | op o a b k ih =>
    rintro G env0 hG ho hal hst ⟨y, hy⟩
    rcases hga : a.get env0 with err | a0
    · rw [Prog.run, hga, M.bind_error (M.lift_apply _ _)] at hy; cases hy
    rcases hgb : Arg.getOpt env0 b with err | b0
    · rw [Prog.run, hga, M.bind_ok (M.lift_apply _ _), hgb, M.bind_error (M.lift_apply _ _)] at hy; cases hy
    have har : arityOk o b0 = true := by
      by_contra hn
      rw [Prog.run, hga, M.bind_ok (M.lift_apply _ _), hgb, M.bind_ok (M.lift_apply _ _), if_neg hn] at hy
      cases hy
    obtain ⟨g, hg⟩ := argF_of_get ho hga
    -- the second operand, or the first one again
    have hb : ∃ h : E → ℝ, (b = none → h = g) ∧ (∀ c, b = some (.lit c) → h = fun _ => c) ∧ ContDiffAt ℝ ω h x0 ∧
        arityOk o b = true ∧ Arg.getOpt (G.map (jetA x0 k0 d)) (b.map (Arg.liftN k0)) = .ok (b.map fun _ => jetA x0 k0 d h) ∧
        (∀ z env, OverF G z env → ∃ b', Arg.getOpt env b = .ok b' ∧ (∀ c, b' = some c → c.ctx = none) ∧
          b'.map AFloat.v = b.map fun _ => h z) := by
      cases b with
      | none =>
        have e0 : b0 = none := by
          have : Arg.getOpt env0 none = .ok b0 := hgb
          simp only [Arg.getOpt, Except.ok.injEq] at this
          exact this.symm
        subst e0
        exact ⟨g, fun _ => rfl, fun c hc => (by cases hc), argF_smooth hG hg, har, rfl,
          fun z env _ => ⟨none, rfl, by simp, rfl⟩⟩
      | some b =>
        rcases hgb' : b.get env0 with err | b1
        · simp only [Arg.getOpt, hgb'] at hgb; cases hgb
        have e0 : b0 = some b1 := by
          simp only [Arg.getOpt, hgb'] at hgb
          injection hgb with hgb
          exact hgb.symm
        subst e0
        obtain ⟨h, hh⟩ := argF_of_get ho hgb'
        refine ⟨h, fun e => (by cases e), ?_, argF_smooth hG hh, har, ?_, ?_⟩
        · intro c hc
          injection hc with hc
          subst hc
          injection hh with hh
          exact hh.symm
        · simp only [Option.map_some, Arg.getOpt, argF_liftN k0 d G b hh]
          rfl
        · intro z env ho'
          obtain ⟨b', k1, k2, k3⟩ := argF_over ho' hh
          refine ⟨some b', by simp only [Arg.getOpt, k1]; rfl, ?_, by simp [k3]⟩
          intro c hc; injection hc with hc; subst hc; exact k2
    obtain ⟨h, hun, hlit, hh, har', hgn, hob⟩ := hb
    have cg := argF_smooth hG hg
    set r : E → ℝ := fun z => zfun o (g z) (h z) with hr
    -- the operation on a point of the family
    have hpt : ∀ z env, OverF G z env → ∃ a' b', a.get env = .ok a' ∧ Arg.getOpt env b = .ok b' ∧ arityOk o b' = true ∧
        a'.v = g z ∧ b'.map AFloat.v = (b.map fun _ => h z) ∧
        AFloat.fromOp o a' b' w = (.ok ⟨r z, opDval o a' b', none⟩, w) ∧
        (Prog.op o a b k).run env w = (k G.length (r z)).run (env ++ [⟨r z, opDval o a' b', none⟩]) w := by
      intro z env hoz
      obtain ⟨a', o1, o2, o3⟩ := argF_over hoz hg
      obtain ⟨b', p1, p2, p3⟩ := hob z env hoz
      have har2 : arityOk o b' = true := by
        cases b <;> cases b' <;> first | exact har' | cases p3
      have hv : opVal o a' b' = r z := by
        unfold opVal
        cases b with
        | none =>
          cases b' with
          | none => rw [hr, hun rfl]; simp only [Option.getD_none, o3]
          | some c => cases p3
        | some b =>
          cases b' with
          | none => cases p3
          | some c => injection p3 with p3; rw [hr]; simp only [Option.getD_some, o3, p3]
      refine ⟨a', b', o1, p1, har2, o3, p3, ?_, ?_⟩
      · rw [fromOp_free w har2 o2 p2, hv]
      · rw [Calculus.run_op_eq o1 p1 har2 o2 p2, hv, hoz.length]
    obtain ⟨a', b', q1, q2, q3, q4, q5, q6, q7⟩ := hpt x0 env0 ho
    obtain ⟨hP, ⟨ε, he, hstab⟩, hnext⟩ := hal a' b' _ q1 q2 q3 (by rw [q6])
    -- the nested operation
    have hna := argF_liftN (x0 := x0) k0 d G a hg
    have harn : arityOk o (b.map fun _ => jetA x0 k0 d h) = true := by cases b <;> exact har'
    have hctx : ∀ c, (b.map fun _ => jetA x0 k0 d h) = some c → c.ctx = none := by
      intro c hc
      cases b with
      | none => cases hc
      | some b => injection hc with hc; subst hc; rfl
    have hgd : (b.map fun _ => jetA x0 k0 d h).getD (jetA x0 k0 d g) = jetA x0 k0 d h := by
      cases b with
      | none => rw [hun rfl]; rfl
      | some b => rfl
    have hfr := fromOpVia_free (up := up) w' harn (a := jetA x0 k0 d g) rfl hctx
    have hP' : SmoothOpN (k0 + 1) o b (g x0) (b.map fun _ => h x0) := by
      have : SmoothOpN (k0 + 1) o b a'.v (b'.map AFloat.v) := hP
      rwa [q4, q5] at this
    have hdom : DomN x0 (k0 + 1) o g h := domN_of har' hlit hP'
    obtain ⟨hso, hst'⟩ := hst _ _ _ hna hgn harn (by rw [hfr])
    rw [hgd] at hso
    have hj : zfun o (jetN x0 (k0 + 1) d g) (jetN x0 (k0 + 1) d h) = jetN x0 (k0 + 1) d r :=
      jetN_steady (k0 + 1) d hdom cg hh hso
    rw [zfun_nestN hdom] at hj
    have hrun := runVia_op_eq (up := up) (k := fun i v => (k i (Nest.val k0 v)).liftN k0) (w := w') hna hgn harn rfl hctx
    have hval : opVal o (jetA x0 k0 d g) (b.map fun _ => jetA x0 k0 d h) = jetN x0 k0 (Fin.tail d) r := by
      unfold opVal
      rw [hgd]
      exact congrArg AFloat.v hj
    have hdval : opDval o (jetA x0 k0 d g) (b.map fun _ => jetA x0 k0 d h) =
        jetN x0 k0 (Fin.tail d) fun z => fderiv ℝ r z (d 0) := by
      unfold opDval
      rw [hgd]
      exact congrArg AFloat.dv hj
    have hlist : G.map (jetA x0 k0 d) ++ [(⟨jetN x0 k0 (Fin.tail d) r, jetN x0 k0 (Fin.tail d) fun z => fderiv ℝ r z (d 0), none⟩ :
        AFloat (Nest ℝ k0))] = (G ++ [r]).map (jetA x0 k0 d) := by
      rw [List.map_append]; rfl
    rw [hval, hdval, hlist, List.length_map, jetN_val] at hrun
    rw [hval, hdval, hlist, List.length_map] at hst'
    have hst' : ((k G.length (Nest.val k0 (jetN x0 k0 (Fin.tail d) r))).liftN k0).SteadyN up w' ((G ++ [r]).map (jetA x0 k0 d)) := hst'
    rw [jetN_val] at hst'
    have cr : ContDiffAt ℝ ω r x0 := hdom.contDiff cg hh
    have hG' : ∀ q ∈ G ++ [r], ContDiffAt ℝ ω q x0 := by
      intro q hq
      rcases List.mem_append.mp hq with hq | hq
      · exact hG q hq
      · rw [List.mem_singleton] at hq; subst hq; exact cr
    rw [ho.length] at hstab hnext
    obtain ⟨Y, y1, y2, y3⟩ := ih G.length (r x0) (G ++ [r]) _ hG' (ho.append rfl) hnext hst'
      ⟨y, by rw [q7] at hy; exact hy⟩
    refine ⟨Y, y1, hrun.trans y2, ?_⟩
    have hnear : ∀ᶠ z in 𝓝 x0, |r z - r x0| < ε := by
      have := cr.continuousAt.eventually (Metric.ball_mem_nhds (r x0) he)
      filter_upwards [this] with z hz
      rwa [Real.dist_eq] at hz
    filter_upwards [y3, hnear] with z z1 z2 env hoz
    obtain ⟨a2, b2, -, -, -, -, -, -, r7⟩ := hpt z env hoz
    rw [r7, hstab _ z2]
    exact z1 _ (hoz.append rfl)

theorem nestN_progs_steady {k0 : Nat} {F : Type} (up : Nest ℝ k0 → F) (d : Fin (k0 + 1) → E) (w : World ℝ) (w' : World F) :
    ∀ (ps : List (List ℝ → Prog ℝ)) (G : List (E → ℝ)) (env0 : List (AFloat ℝ)), (∀ g ∈ G, ContDiffAt ℝ ω g x0) →
    OverF G x0 env0 → alongProgs (smoothN (k0 + 1)) w ps env0 →
    steadyProgsN up w' (ps.map fun p xs => (p (xs.map (Nest.val k0))).liftN k0) (G.map (jetA x0 k0 d)) → (∃ y, (runProgs ps env0 w).1 = .ok y) →
    ∃ Y : List (E → ℝ), (∀ g ∈ Y, ContDiffAt ℝ ω g x0) ∧
      runProgsVia up (ps.map fun p xs => (p (xs.map (Nest.val k0))).liftN k0) (G.map (jetA x0 k0 d)) w' =
        (.ok (Y.map (jetA x0 k0 d)), w') ∧
      ∀ᶠ z in 𝓝 x0, ∀ env, OverF G z env → ∃ ys, runProgs ps env w = (.ok ys, w) ∧ OverF Y z ys
  | [], G, env0, hG, ho, hal, _, hok => ⟨G, hG, rfl, Eventually.of_forall fun z env ho => ⟨env, rfl, ho⟩⟩
  | p :: ps, G, env0, hG, ho, ⟨⟨ε, he, hstab⟩, hal, hnext⟩, ⟨hst, hst'⟩, ⟨y, hy⟩ => by
      rw [ho.2] at hal hnext
      have hst : ((p (((G.map (jetA x0 k0 d)).map AFloat.v).map (Nest.val k0))).liftN k0).SteadyN up w' (G.map (jetA x0 k0 d)) := hst
      have hst' : ∀ y, (((p (((G.map (jetA x0 k0 d)).map AFloat.v).map (Nest.val k0))).liftN k0).runVia up
        (G.map (jetA x0 k0 d)) w').1 = .ok y → steadyProgsN up w' (ps.map fun p xs => (p (xs.map (Nest.val k0))).liftN k0) y := hst'
      rw [jetA_val] at hst hst'
      have hp : ∃ y, ((p (G.map fun g => g x0)).run env0 w).1 = .ok y := by
        rw [runProgs, ho.2, M.bind_apply] at hy
        rcases h : (p (G.map fun g => g x0)).run env0 w with ⟨e | y', w'⟩
        · rw [h] at hy; cases hy
        · exact ⟨y', by rw [h]⟩
      obtain ⟨Y, y1, y2, y3⟩ := nestN_prog_steady up d w w' _ G env0 hG ho hal hst hp
      obtain ⟨ys, r1, r2⟩ := y3.self_of_nhds env0 ho
      obtain ⟨Z, z1, z2, z3⟩ := nestN_progs_steady up d w w' ps Y ys y1 r2 (hnext ys (by rw [r1])) (hst' _ (by rw [y2])) (by
        refine ⟨y, ?_⟩
        rw [runProgs, ho.2, M.bind_ok r1] at hy
        exact hy)
      refine ⟨Z, z1, ?_, ?_⟩
      · show (((p (((G.map (jetA x0 k0 d)).map AFloat.v).map (Nest.val k0))).liftN k0).runVia up (G.map (jetA x0 k0 d)) >>=
          fun y => runProgsVia up _ y) w' = _
        rw [jetA_val, M.bind_ok y2, z2]
      have hnear : ∀ᶠ z in 𝓝 x0, ∀ g ∈ G, |g z - g x0| < ε := by
        refine near_all fun g hg => ?_
        have := (hG g hg).continuousAt.eventually (Metric.ball_mem_nhds (g x0) he)
        filter_upwards [this] with z hz
        rwa [Real.dist_eq] at hz
      filter_upwards [y3, z3, hnear] with z hz1 hz2 hz3 env hoz
      have hpe : p (env.map AFloat.v) = p (G.map fun g => g x0) := by
        rw [← ho.2]
        apply hstab
        · rw [List.length_map, hoz.length, ho.length]
        · intro i h1 h2
          have e1 := List.getElem_of_eq hoz.2 (i := i) h1
          have e2 := List.getElem_of_eq ho.2 (i := i) (by simpa using h2)
          simp only [List.getElem_map] at e1 e2 ⊢
          rw [e1, e2]
          exact hz3 _ (List.getElem_mem _)
      obtain ⟨zs, k1, k2⟩ := hz1 env hoz
      obtain ⟨us, k3, k4⟩ := hz2 zs k2
      exact ⟨us, by rw [runProgs, hpe, M.bind_ok k1, k3], k4⟩

end jets

/-- Generic code on variables nested `k + 1` times. -/
theorem nestN_func_steady {k : Nat} {T : Type} {up : Nest ℝ k → T} {f : Func ℝ} {n : Nat} {x : Fin n → ℝ} (d : Fin (k + 1) → Fin n → ℝ)
    {w : World ℝ} {w' : World T} {y0 : List ℝ} (he : (f.evalFloat (List.ofFn x) w).1 = .ok y0)
    (hs : f.Along (smoothN (k + 1)) w (duals x 0)) (hst : (f.nestN k).SteadyN up w' (nestedVars k x d)) :
    ∃ F : (Fin n → ℝ) → Fin y0.length → ℝ, (∀ᶠ z in 𝓝 x, (f.evalFloat (List.ofFn z) w).1 = .ok (List.ofFn (F z))) ∧
      ContDiffAt ℝ ω F x ∧
      (f.nestN k).evalVia up (nestedVars k x d) w' = (.ok (List.ofFn fun i => jetA x k d fun z => F z i), w') := by
  let G : List ((Fin n → ℝ) → ℝ) := List.ofFn fun i z => z i
  have hG : ∀ g ∈ G, ContDiffAt ℝ ω g x := by
    intro g hg
    obtain ⟨i, rfl⟩ := List.mem_ofFn.mp hg
    exact contDiffAt_pi.mp contDiffAt_id i
  have hov : ∀ z, OverF G z (duals z 0) := fun z => ⟨duals_ctx _ _, by rw [duals_v, List.map_ofFn]; rfl⟩
  have hjet : G.map (jetA x k d) = nestedVars k x d := by
    rw [List.map_ofFn, nestedVars]
    congr 1
    funext i
    exact jetN_coord (k + 1) d i
  have hst : steadyProgsN up w' (f.nestN k).progs (nestedVars k x d) := hst
  rw [progs_nestN, ← hjet] at hst
  have hok : ∃ ys, (runProgs f.progs (duals x 0) w).1 = .ok ys := by
    have he' := he
    rw [Func.evalFloat_eq] at he'
    obtain ⟨ys, h1, h2⟩ := Func.evalD_ok (dx := List.ofFn (0 : Fin n → ℝ)) (by simp) he'
    rw [← Func.eval_eq, duals_zip, Func.eval_new, h1]
    exact ⟨_, rfl⟩
  obtain ⟨Y, y1, y2, y3⟩ := nestN_progs_steady (x0 := x) up d w w' f.progs G _ hG (hov x) hs hst hok
  have hev : ∀ᶠ z in 𝓝 x, (f.evalFloat (List.ofFn z) w).1 = .ok (Y.map fun q => q z) := by
    filter_upwards [y3] with z hz
    obtain ⟨zs, k1, k2⟩ := hz (duals z 0) (hov z)
    rw [evalFloat_of_run k1, k2.2]
  have hx := hev.self_of_nhds
  rw [he] at hx
  injection hx with hx
  subst hx
  refine ⟨fun z i => (Y[i]'(by have := i.2; simpa using this)) z, ?_, ?_, ?_⟩
  · filter_upwards [hev] with z hz
    rw [hz]
    congr 1
    apply List.ext_getElem
    · simp
    · intro i h1 h2; simp
  · exact contDiffAt_pi.mpr fun i => y1 _ (List.getElem_mem _)
  · rw [evalVia_eq, progs_nestN, ← hjet, y2]
    congr 2
    apply List.ext_getElem
    · simp
    · intro i h1 h2; simp

end Adv
