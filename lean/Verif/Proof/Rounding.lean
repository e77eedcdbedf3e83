import Verif.Spec.Machine
import Verif.Proof.Deriv
import Mathlib.Analysis.SpecialFunctions.Sqrt

/-!
# Families of machine arithmetics

`Near a g`: the numbers `g i`, computed in arithmetics with unit roundoff `u i → 0`, are finite and differ from `a` by
`O(u i)`.
-/

set_option linter.unusedSectionVars false

namespace Adv
open scoped Adv Topology
open Filter Asymptotics

/-- A family of machine arithmetics. -/
structure Ariths {ι : Type*} (l : Filter ι) {S : ι → Type} (val : ∀ i, S i → Option ℝ) (A : ∀ i, Flt (S i)) (u : ι → ℝ) :
    Prop where
  machine : ∀ i, Machine (val i) (A i) (u i)
  tendsto : Tendsto u l (𝓝 0)

variable {ι : Type*} {l : Filter ι} {S : ι → Type} {val : ∀ i, S i → Option ℝ} {A : ∀ i, Flt (S i)} {u : ι → ℝ}

/-- Real numbers `r i = a + O(u i)`. -/
def NearR (l : Filter ι) (u : ι → ℝ) (a : ℝ) (r : ι → ℝ) : Prop := (fun i => r i - a) =O[l] u

/-- Machine numbers `g i = a + O(u i)`. -/
def Near (l : Filter ι) (val : ∀ i, S i → Option ℝ) (u : ι → ℝ) (a : ℝ) (g : ∀ i, S i) : Prop :=
  ∃ r, NearR l u a r ∧ ∀ᶠ i in l, val i (g i) = some (r i)

theorem Near.const {c : ℝ} {g : ∀ i, S i} (h : ∀ᶠ i in l, val i (g i) = some c) : Near l val u c g := by
  refine ⟨fun _ => c, ?_, h⟩
  unfold NearR
  simpa using isBigO_zero _ _

theorem Near.congr {a : ℝ} {g h : ∀ i, S i} (hg : Near l val u a g) (e : ∀ᶠ i in l, val i (h i) = val i (g i)) :
    Near l val u a h := by
  obtain ⟨r, h1, h2⟩ := hg
  refine ⟨r, h1, ?_⟩
  filter_upwards [h2, e] with i k1 k2
  rw [k2, k1]

namespace Ariths
variable (F : Ariths l val A u)
include F

theorem near_tendsto {a : ℝ} {r : ι → ℝ} (h : NearR l u a r) : Tendsto r l (𝓝 a) := by
  have h1 : Tendsto (fun i => r i - a) l (𝓝 0) := h.trans_tendsto F.tendsto
  have := h1.add_const a
  simpa using this

/-- Lipschitz at a point, and computed with a small error. -/
theorem op2 {a b : ℝ} {g h : ∀ i, S i} {φ : ℝ × ℝ → ℝ} {op : ∀ i, S i} (hg : Near l val u a g) (hh : Near l val u b h)
    (hφ : (fun p => φ p - φ (a, b)) =O[𝓝 (a, b)] fun p => p - (a, b))
    (hop : ∀ r s, NearR l u a r → NearR l u b s → ∀ᶠ i in l, val i (g i) = some (r i) → val i (h i) = some (s i) →
      ComputesM (u i) (val i (op i)) (φ (r i, s i))) : Near l val u (φ (a, b)) op := by
  obtain ⟨r, hr, er⟩ := hg
  obtain ⟨s, hs, es⟩ := hh
  have ht : Tendsto (fun i => (r i, s i)) l (𝓝 (a, b)) := (F.near_tendsto hr).prodMk_nhds (F.near_tendsto hs)
  have h1 : (fun i => φ (r i, s i) - φ (a, b)) =O[l] u := by
    have := hφ.comp_tendsto ht
    refine this.trans ?_
    exact IsBigO.prod_left (f' := fun i => r i - a) (g' := fun i => s i - b) hr hs
  have h2 : Tendsto (fun i => φ (r i, s i)) l (𝓝 (φ (a, b))) := by
    have := (h1.trans_tendsto F.tendsto).add_const (φ (a, b))
    simpa using this
  have h5 : Tendsto (fun i => |φ (r i, s i)| * u i) l (𝓝 0) := by simpa using h2.abs.mul F.tendsto
  have h6 : ∀ᶠ i in l, ∃ z, val i (op i) = some z ∧ |z - φ (r i, s i)| ≤ u i * (|φ (r i, s i)| + 1) := by
    filter_upwards [hop r s hr hs, er, es, h5.eventually (gt_mem_nhds one_pos)] with i k1 k2 k3 k4
    exact k1 k2 k3 k4.le
  refine ⟨fun i => (val i (op i)).getD 0, ?_, h6.mono fun i ⟨z, k, _⟩ => by simp [k]⟩
  have h3 : (fun i => (val i (op i)).getD 0 - φ (r i, s i)) =O[l] u := by
    have h4 : Tendsto (fun i => |φ (r i, s i)| + 1) l (𝓝 (|φ (a, b)| + 1)) := h2.abs.add_const 1
    have hb : (fun i => u i * (|φ (r i, s i)| + 1)) =O[l] fun i => u i * 1 := (isBigO_refl u l).mul (h4.isBigO_one ℝ)
    simp only [mul_one] at hb
    refine IsBigO.trans (IsBigO.of_bound 1 ?_) hb
    filter_upwards [h6] with i ⟨z, k1, k2⟩
    rw [one_mul, Real.norm_eq_abs, Real.norm_eq_abs, k1]
    exact k2.trans (le_abs_self _)
  have := h3.add h1
  refine this.congr_left fun i => ?_
  ring

theorem op1 {a : ℝ} {g : ∀ i, S i} {φ : ℝ → ℝ} {op : ∀ i, S i} (hg : Near l val u a g)
    (hφ : (fun s => φ s - φ a) =O[𝓝 a] fun s => s - a)
    (hop : ∀ r, NearR l u a r → ∀ᶠ i in l, val i (g i) = some (r i) → ComputesM (u i) (val i (op i)) (φ (r i))) :
    Near l val u (φ a) op := by
  refine F.op2 (φ := fun p => φ p.1) hg hg ?_ fun r s hr _ => (hop r hr).mono fun i h e _ => h e
  have := hφ.comp_tendsto (continuous_fst.tendsto ((a, a) : ℝ × ℝ))
  refine this.trans (IsBigO.of_bound 1 (Eventually.of_forall fun p => ?_))
  rw [one_mul]
  exact norm_fst_le (p - (a, a))

theorem diff1 {a d : ℝ} {g : ∀ i, S i} {φ : ℝ → ℝ} {op : ∀ i, S i} (hg : Near l val u a g) (hφ : HasDerivAt φ d a)
    (hop : ∀ r, NearR l u a r → ∀ᶠ i in l, val i (g i) = some (r i) → ComputesM (u i) (val i (op i)) (φ (r i))) :
    Near l val u (φ a) op :=
  F.op1 hg hφ.differentiableAt.isBigO_sub hop

theorem diff2 {a b : ℝ} {g h : ∀ i, S i} {φ : ℝ × ℝ → ℝ} {op : ∀ i, S i} (hg : Near l val u a g) (hh : Near l val u b h)
    (hφ : DifferentiableAt ℝ φ (a, b))
    (hop : ∀ r s, NearR l u a r → NearR l u b s → ∀ᶠ i in l, val i (g i) = some (r i) → val i (h i) = some (s i) →
      ComputesM (u i) (val i (op i)) (φ (r i, s i))) :
    Near l val u (φ (a, b)) op :=
  F.op2 hg hh hφ.isBigO_sub hop

section ops
variable {a b : ℝ}

section
variable {g : ι → ℝ} (hg : NearR l u a g)
include hg

theorem ev_pos (h : 0 < a) : ∀ᶠ i in l, 0 < g i := (F.near_tendsto hg).eventually (lt_mem_nhds h)
theorem ev_ne (h : a ≠ 0) : ∀ᶠ i in l, g i ≠ 0 := (F.near_tendsto hg).eventually_ne h

theorem ev_between (h1 : -1 < a) (h2 : a < 1) : ∀ᶠ i in l, -1 ≤ g i ∧ g i ≤ 1 :=
  ((F.near_tendsto hg).eventually (lt_mem_nhds h1)).and ((F.near_tendsto hg).eventually (gt_mem_nhds h2)) |>.mono
    fun _ h => ⟨h.1.le, h.2.le⟩

theorem ev_zpow {n : ℤ} (ha : a ≠ 0 ∨ 0 ≤ n) : ∀ᶠ i in l, g i ≠ 0 ∨ 0 ≤ n :=
  ha.elim (fun h => (F.ev_ne hg h).mono fun _ => .inl) fun h => Eventually.of_forall fun _ => .inr h

end

variable {g h : ∀ i, S i} (hg : Near l val u a g) (hh : Near l val u b h)
include hg

theorem neg : Near l val u (-a) fun i => (A i).neg (g i) :=
  F.diff1 (φ := fun s => -s) hg (hasDerivAt_neg a) (fun _ _ => Eventually.of_forall fun i e => (F.machine i).neg e)

theorem abs : Near l val u |a| fun i => (A i).abs (g i) := by
  refine F.op1 (φ := fun s => |s|) hg (IsBigO.of_bound 1 (Eventually.of_forall fun s => ?_))
    (fun _ _ => Eventually.of_forall fun i e => (F.machine i).abs e)
  rw [one_mul, Real.norm_eq_abs, Real.norm_eq_abs]
  exact abs_abs_sub_abs_le_abs_sub s a

theorem sin : Near l val u (Real.sin a) fun i => (A i).sin (g i) :=
  F.diff1 hg (Real.hasDerivAt_sin a) (fun _ _ => Eventually.of_forall fun i e => (F.machine i).sin e)
theorem cos : Near l val u (Real.cos a) fun i => (A i).cos (g i) :=
  F.diff1 hg (Real.hasDerivAt_cos a) (fun _ _ => Eventually.of_forall fun i e => (F.machine i).cos e)
theorem exp : Near l val u (Real.exp a) fun i => (A i).exp (g i) :=
  F.diff1 hg (Real.hasDerivAt_exp a) (fun _ _ => Eventually.of_forall fun i e => (F.machine i).exp e)
theorem atan : Near l val u (Real.arctan a) fun i => (A i).atan (g i) :=
  F.diff1 hg (Real.hasDerivAt_arctan a) (fun _ _ => Eventually.of_forall fun i e => (F.machine i).atan e)
theorem ln (ha : 0 < a) : Near l val u (Real.log a) fun i => (A i).ln (g i) :=
  F.diff1 hg (Real.hasDerivAt_log ha.ne') (fun _ hr => (F.ev_pos hr ha).mono fun i hi e => (F.machine i).ln e hi)
theorem sqrt (ha : 0 < a) : Near l val u (Real.sqrt a) fun i => (A i).sqrt (g i) :=
  F.diff1 hg (Real.hasDerivAt_sqrt ha.ne') (fun _ hr => (F.ev_pos hr ha).mono fun i hi e => (F.machine i).sqrt e hi.le)
theorem tan (ha : Real.cos a ≠ 0) : Near l val u (Real.tan a) fun i => (A i).tan (g i) :=
  F.diff1 hg (Real.hasDerivAt_tan ha)
    (fun _ hr => ((Real.continuous_cos.tendsto a).comp (F.near_tendsto hr)).eventually_ne ha |>.mono
      fun i hi e => (F.machine i).tan e hi)

theorem asin (h1 : -1 < a) (h2 : a < 1) : Near l val u (Real.arcsin a) fun i => (A i).asin (g i) :=
  F.diff1 hg (Real.hasDerivAt_arcsin h1.ne' h2.ne) 
    (fun _ hr => (F.ev_between hr h1 h2).mono fun i hi e => (F.machine i).asin e hi.1 hi.2)
theorem acos (h1 : -1 < a) (h2 : a < 1) : Near l val u (Real.arccos a) fun i => (A i).acos (g i) :=
  F.diff1 hg (Real.hasDerivAt_arccos h1.ne' h2.ne) 
    (fun _ hr => (F.ev_between hr h1 h2).mono fun i hi e => (F.machine i).acos e hi.1 hi.2)

theorem powi {n : ℤ} (ha : a ≠ 0 ∨ 0 ≤ n) : Near l val u (a ^ n) fun i => (A i).powi (g i) n :=
  F.diff1 (φ := fun s => s ^ n) hg (hasDerivAt_zpow n a ha)
    (fun _ hr => (F.ev_zpow hr ha).mono fun i hi e => (F.machine i).powi e hi)

theorem powf_int {n : ℤ} (ha : a ≠ 0 ∨ 0 ≤ n) {h : ∀ i, S i} (hn : ∀ᶠ i in l, val i (h i) = some (n : ℝ)) :
    Near l val u (a ^ n) fun i => (A i).powf (g i) (h i) :=
  F.diff1 (φ := fun s => s ^ n) hg (hasDerivAt_zpow n a ha) (fun _ hr => by
    filter_upwards [F.ev_zpow hr ha, hn] with i hi hn e
    exact (F.machine i).powf_int e hn hi)

include hh

theorem add : Near l val u (a + b) fun i => (A i).add (g i) (h i) :=
  F.diff2 (φ := fun p => p.1 + p.2) hg hh (by fun_prop) (fun _ _ _ _ => Eventually.of_forall fun i e e2 => (F.machine i).add e e2)
theorem sub : Near l val u (a - b) fun i => (A i).sub (g i) (h i) :=
  F.diff2 (φ := fun p => p.1 - p.2) hg hh (by fun_prop) (fun _ _ _ _ => Eventually.of_forall fun i e e2 => (F.machine i).sub e e2)
theorem mul : Near l val u (a * b) fun i => (A i).mul (g i) (h i) :=
  F.diff2 (φ := fun p => p.1 * p.2) hg hh (by fun_prop) (fun _ _ _ _ => Eventually.of_forall fun i e e2 => (F.machine i).mul e e2)
theorem div (hb : b ≠ 0) : Near l val u (a / b) fun i => (A i).div (g i) (h i) :=
  F.diff2 (φ := fun p => p.1 / p.2) hg hh (by fun_prop (disch := exact hb))
    (fun _ _ _ hs => (F.ev_ne hs hb).mono fun i hi e e2 => (F.machine i).div e e2 hi)
theorem powf (ha : 0 < a) : Near l val u (a ^ b) fun i => (A i).powf (g i) (h i) :=
  F.diff2 (φ := fun p => p.1 ^ p.2) hg hh (Real.differentiableAt_rpow_of_ne (a, b) ha.ne')
    (fun _ _ hr _ => (F.ev_pos hr ha).mono fun i hi e e2 => (F.machine i).powf e e2 hi)

end ops

theorem near_zero : Near l val u 0 fun i => (A i).zero := .const (Eventually.of_forall fun i => (F.machine i).zero)
theorem near_one : Near l val u 1 fun i => (A i).one := .const (Eventually.of_forall fun i => (F.machine i).one)

/-- A term that is skipped where a factor vanishes. -/
theorem skip {a d : ℝ} {f g : ∀ i, S i} (hf : Near l val u (a * d) f) (hg : Near l val u d g) :
    Near l val u (a * d) fun i => if !((A i).eq (g i) (A i).zero) then f i else (A i).zero := by
  obtain ⟨r, hr, er⟩ := hf
  obtain ⟨s, hs, es⟩ := hg
  refine ⟨fun i => if s i = 0 then 0 else r i, ?_, ?_⟩
  · have h1 : (fun i => a * (s i - d)) =O[l] u := hs.const_mul_left a
    have h2 : (fun i => |r i - a * d| + |a * (s i - d)|) =O[l] u := (IsBigO.norm_left hr).add h1.norm_left
    refine IsBigO.trans (IsBigO.of_bound 1 (Eventually.of_forall fun i => ?_)) h2
    rw [one_mul, Real.norm_of_nonneg (add_nonneg (abs_nonneg _) (abs_nonneg _)), Real.norm_eq_abs]
    simp only
    by_cases h : s i = 0
    · rw [if_pos h, h]
      simp only [zero_sub, mul_neg, abs_neg]
      linarith [abs_nonneg (r i - a * d)]
    · rw [if_neg h]
      linarith [abs_nonneg (a * (s i - d))]
  · filter_upwards [er, es] with i k1 k2
    by_cases h : s i = 0
    · have h3 : (A i).eq (g i) (A i).zero = true := ((F.machine i).eq k2 (F.machine i).zero).mpr h
      rw [h3, if_pos h]
      exact (F.machine i).zero
    · have h3 : (A i).eq (g i) (A i).zero = false := by
        rw [← Bool.not_eq_true, (F.machine i).eq k2 (F.machine i).zero]; exact h
      rw [h3, if_neg h]
      exact k1

/-- Values of elementary operations. -/
theorem zfun {o : OpCode} {arg : Option (Arg ℝ)} {a b : ℝ} {g h : ∀ i, S i} (ho : arityOk o arg = true)
    (hg : Near l val u a g) (hh : Near l val u b h) (hs : SmoothOp o arg a (arg.map fun _ => b))
    (hlit : ∀ c, arg = some (.lit c) → b = c ∧ ∀ᶠ i in l, val i (h i) = some c) :
    Near l val u (Adv.zfun o a b) fun i => @Adv.zfun (S i) (A i) o (g i) (h i) := by
  cases o <;> cases arg <;> simp only [arityOk, OpCode.isUnary, OpCode.isBinary, Bool.false_eq_true] at ho
  case Add => exact F.add hg hh
  case Sub => exact F.sub hg hh
  case Mul => exact F.mul hg hh
  case Div =>
    refine F.div hg hh fun e => hs ?_
    rw [e]; rfl
  case Sin => exact F.sin hg
  case Cos => exact F.cos hg
  case Tan => exact F.tan hg hs
  case Abs => exact F.abs hg
  case Exp => exact F.exp hg
  case Ln => exact F.ln hg hs
  case Asin => exact F.asin hg hs.1 hs.2
  case Acos => exact F.acos hg hs.1 hs.2
  case Atan => exact F.atan hg
  case Powf =>
    rcases hs with hs | ⟨n, hn, hs⟩
    · exact F.powf hg hh hs
    · obtain ⟨h1, h2⟩ := hlit _ hn
      have := F.powf_int (n := n) hg (hs.imp id fun h => by omega) h2
      rw [h1]
      have e : a ^ (n : ℝ) = a ^ n := Real.rpow_intCast a n
      show Near l val u (a ^ (n : ℝ)) _
      rw [e]; exact this

/-- Derivatives of elementary operations. -/
theorem ffun {o : OpCode} {arg : Option (Arg ℝ)} {a b da db : ℝ} {g h dg dh : ∀ i, S i} (ho : arityOk o arg = true)
    (hg : Near l val u a g) (hh : Near l val u b h) (hdg : Near l val u da dg) (hdh : Near l val u db dh)
    (hs : SmoothOp o arg a (arg.map fun _ => b))
    (hlit : ∀ c, arg = some (.lit c) → b = c ∧ db = 0 ∧ ∀ᶠ i in l, val i (h i) = some c ∧ val i (dh i) = some 0) :
    Near l val u (Adv.ffun o a b da db) fun i => @Adv.ffun (S i) (A i) o (g i) (h i) (dg i) (dh i) := by
  have sq : ∀ {a : ℝ} {g : ∀ i, S i}, Near l val u a g → Near l val u (a ^ (2 : ℤ)) fun i => (A i).powi (g i) 2 :=
    fun h => F.powi h (.inr (by norm_num))
  cases o <;> cases arg <;> simp only [arityOk, OpCode.isUnary, OpCode.isBinary, Bool.false_eq_true] at ho
  case Add => exact F.add hdg hdh
  case Sub => exact F.sub hdg hdh
  case Mul => exact F.add (F.mul hdg hh) (F.mul hg hdh)
  case Div =>
    refine F.div (F.sub (F.mul hdg hh) (F.mul hg hdh)) (sq hh) (zpow_ne_zero 2 fun e => hs ?_)
    rw [e]; rfl
  case Sin => exact F.mul hdg (F.cos hg)
  case Cos => exact F.mul (F.neg hdg) (F.sin hg)
  case Tan => exact F.mul hdg (F.div F.near_one (sq (F.cos hg)) (zpow_ne_zero 2 hs))
  case Abs => exact F.sub (F.abs (F.add hg hdg)) (F.abs hg)
  case Exp => exact F.mul hdg (F.exp hg)
  case Ln => exact F.mul hdg (F.div F.near_one hg (ne_of_gt hs))
  case Asin =>
    have h1 : (0 : ℝ) < 1 - a ^ (2 : ℤ) := by
      have : a ^ (2 : ℤ) = a ^ 2 := by norm_cast
      rw [this]; nlinarith [hs.1, hs.2]
    exact F.div hdg (F.sqrt (F.sub F.near_one (sq hg)) h1) (Real.sqrt_pos.mpr h1).ne'
  case Acos =>
    have h1 : (0 : ℝ) < 1 - a ^ (2 : ℤ) := by
      have : a ^ (2 : ℤ) = a ^ 2 := by norm_cast
      rw [this]; nlinarith [hs.1, hs.2]
    exact F.div (F.neg hdg) (F.sqrt (F.sub F.near_one (sq hg)) h1) (Real.sqrt_pos.mpr h1).ne'
  case Atan =>
    refine F.div hdg (F.add F.near_one (sq hg)) ?_
    have : a ^ (2 : ℤ) = a ^ 2 := by norm_cast
    show 1 + a ^ (2 : ℤ) ≠ 0
    rw [this]; positivity
  case Powf =>
    have e0 : Adv.ffun OpCode.Powf a b da db = b * a ^ (b - 1) * da + Real.log a * a ^ b * db := by
      show (if !(decide (da = 0)) then b * a ^ (b - 1) * da else 0) +
        (if !(decide (db = 0)) then Real.log a * a ^ b * db else 0) = _
      by_cases e1 : da = 0 <;> by_cases e2 : db = 0 <;> simp [e1, e2]
    rw [e0]
    rcases hs with hs | ⟨n, hn, hs⟩
    · exact F.add (F.skip (F.mul (F.mul hh (F.powf hg (F.sub hh F.near_one) hs)) hdg) hdg)
        (F.skip (F.mul (F.mul (F.ln hg hs) (F.powf hg hh hs)) hdh) hdh)
    · obtain ⟨h1, h2, h3⟩ := hlit _ hn
      have hn : ∀ᶠ i in l, val i ((A i).sub (h i) (A i).one) = some ((n - 1 : ℤ) : ℝ) := by
        have h4 : Tendsto (fun i => |(n : ℝ)| * u i) l (𝓝 0) := by simpa using F.tendsto.const_mul |(n : ℝ)|
        filter_upwards [h4.eventually (gt_mem_nhds one_pos), h3] with i hi h3
        rw [(F.machine i).pred h3.1 hi]
        push_cast; rfl
      have h5 : Near l val u (a ^ (b - 1)) fun i => (A i).powf (g i) ((A i).sub (h i) (A i).one) := by
        have e : a ^ (b - 1) = a ^ (n - 1) := by
          rw [h1, ← Real.rpow_intCast a (n - 1)]; push_cast; rfl
        rw [e]
        exact F.powf_int (n := n - 1) hg (hs.imp id fun h => by omega) hn
      refine F.add (F.skip (F.mul (F.mul hh h5) hdg) hdg) ?_
      rw [h2, mul_zero]
      refine .const ?_
      filter_upwards [h3] with i h3
      have h6 : (A i).eq (dh i) (A i).zero = true := ((F.machine i).eq h3.2 (F.machine i).zero).mpr rfl
      simp only [h6]
      exact (F.machine i).zero

end Ariths
end Adv
