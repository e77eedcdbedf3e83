import Verif.Proof.Jet
import Verif.Spec.Demo
import Mathlib.Analysis.SpecialFunctions.Log.Base

/-!
# `AFloat` methods: C40, C41, C42, C43, C44, C45
-/

set_option linter.unusedSectionVars false

namespace Adv.Props
open Adv
open scoped Adv

section generic
variable {S : Type} [Flt S]

/-! ## C40 -/

/-- C40: the results of comparisons and predicates only depend on the values (they take no state, so
they cannot record anything). -/
theorem C40_comparisons_depend_on_values {a a' b b' : AFloat S} (ha : a.v = a'.v) (hb : b.v = b'.v) :
    a.eq b = a'.eq b' ∧ a.partialCmp b = a'.partialCmp b' ∧ a.lt b = a'.lt b' ∧ a.le b = a'.le b' ∧
    a.gt b = a'.gt b' ∧ a.ge b = a'.ge b' ∧ a.isZero = a'.isZero ∧ a.isOne = a'.isOne ∧
    ∀ (β : Type) (method : S → β), a.passthrough method = a'.passthrough method := by
  simp only [AFloat.eq, AFloat.partialCmp, AFloat.lt, AFloat.le, AFloat.gt, AFloat.ge, AFloat.isZero,
    AFloat.isOne, AFloat.passthrough, ha, hb, and_self, implies_true]

/-- C40: they are the tests of the scalar type on the values, whenever `<` and `==` of the scalar type
exclude each other (as they do for floating point numbers, including NaN). -/
theorem C40_comparisons_are_scalar_tests (hlaw : ∀ x y : S, Flt.lt x y = true → Flt.eq x y = false)
    (hasym : ∀ x y : S, Flt.lt x y = true → Flt.lt y x = false)
    (hsymm : ∀ x y : S, Flt.eq x y = Flt.eq y x) (a b : AFloat S) :
    a.eq b = Flt.eq a.v b.v ∧ a.lt b = Flt.lt a.v b.v ∧ a.gt b = Flt.lt b.v a.v ∧
    a.le b = (Flt.lt a.v b.v || Flt.eq a.v b.v) ∧ a.ge b = (Flt.lt b.v a.v || Flt.eq a.v b.v) ∧
    a.isZero = Flt.eq a.v Flt.zero ∧ a.isOne = Flt.eq a.v Flt.one ∧
    ∀ (β : Type) (method : S → β), a.passthrough method = method a.v := by
  have l1 := hlaw a.v b.v
  have l2 := hlaw b.v a.v
  have l3 := hasym a.v b.v
  rw [hsymm b.v a.v] at l2
  simp only [AFloat.eq, AFloat.partialCmp, AFloat.scalarPartialCmp, AFloat.lt, AFloat.le, AFloat.gt,
    AFloat.ge, AFloat.isZero, AFloat.isOne, AFloat.passthrough]
  rcases h1 : Flt.eq a.v b.v <;> rcases h2 : Flt.lt a.v b.v <;> rcases h3 : Flt.lt b.v a.v <;>
    simp_all

example : (AFloat.lt (⟨1, 5, some (1, 0)⟩ : AFloat ℚ) ⟨2, -7, none⟩) = true ∧
    (AFloat.eq (⟨1, 5, some (1, 0)⟩ : AFloat ℚ) ⟨1, -7, none⟩) = true ∧
    (∀ x y : NQ, Flt.lt x y = true → Flt.eq x y = false) := by
  refine ⟨by decide +kernel, by decide +kernel, ?_⟩
  intro x y h
  cases x <;> cases y <;> simp_all [Flt.lt, Flt.eq]
  exact ne_of_lt h

/-! ## C43 -/

/-- C43: operators with one `f64` operand, and assigning operators, are the operator on two `AFloat`s with
the number converted by `From`: same result and same effect on all recordings. -/
theorem C43_mixed_and_assigning_operators (o : AFloat.ArithOp) (a b : AFloat S) (c : S) (w : World S) :
    AFloat.arithScalar o a c w = AFloat.arith o a (AFloat.ofScalar c) w ∧
    AFloat.scalarArith o c a w = AFloat.arith o (AFloat.ofScalar c) a w ∧
    AFloat.arithAssign o a b w = AFloat.arith o a b w ∧
    AFloat.arithAssignScalar o a c w = AFloat.arith o a (AFloat.ofScalar c) w := by
  refine ⟨rfl, rfl, ?_, ?_⟩
  · unfold AFloat.arithAssign; simp
  · unfold AFloat.arithAssignScalar AFloat.arithScalar AFloat.arith; simp

/-- C43: the operators are the arithmetic methods of C55. -/
theorem C43_operators_are_methods (a b : AFloat S) (w : World S) :
    AFloat.arith .add a b w = AFloat.add a b w ∧ AFloat.arith .sub a b w = AFloat.sub a b w ∧
    AFloat.arith .mul a b w = AFloat.mul a b w ∧ AFloat.arith .div a b w = AFloat.div a b w :=
  ⟨rfl, rfl, rfl, rfl⟩

/-- C43: the values of mixed operations, with the operands in the given order. -/
theorem C43_mixed_values {a r : AFloat S} {c : S} {w w' : World S} :
    (AFloat.arithScalar .add a c w = (.ok r, w') → r.v = a.v +ᶠ c) ∧
    (AFloat.arithScalar .sub a c w = (.ok r, w') → r.v = a.v -ᶠ c) ∧
    (AFloat.arithScalar .mul a c w = (.ok r, w') → r.v = a.v *ᶠ c) ∧
    (AFloat.arithScalar .div a c w = (.ok r, w') → r.v = a.v /ᶠ c) ∧
    (AFloat.scalarArith .add c a w = (.ok r, w') → r.v = c +ᶠ a.v) ∧
    (AFloat.scalarArith .sub c a w = (.ok r, w') → r.v = c -ᶠ a.v) ∧
    (AFloat.scalarArith .mul c a w = (.ok r, w') → r.v = c *ᶠ a.v) ∧
    (AFloat.scalarArith .div c a w = (.ok r, w') → r.v = c /ᶠ a.v) :=
  ⟨fun h => (fromOp_ok rfl h).1, fun h => (fromOp_ok rfl h).1, fun h => (fromOp_ok rfl h).1,
    fun h => (fromOp_ok rfl h).1, fun h => (fromOp_ok rfl h).1, fun h => (fromOp_ok rfl h).1,
    fun h => (fromOp_ok rfl h).1, fun h => (fromOp_ok rfl h).1⟩

example : (AFloat.scalarArith .sub 5 (⟨2, 1, some (1, 0)⟩ : AFloat ℚ) Demo.s3.world).1 =
    .ok ⟨3, -1, some (1, 2)⟩ := by decide +kernel

/-! ## C45 -/

/-- C45: unsupported operations panic and change nothing. -/
theorem C45_unsupported_operations_panic (m : AFloat.UnsupportedMethod) (a b : AFloat S)
    (c : Option (AFloat S)) (w : World S) :
    AFloat.unsupported m a c w = (.error .unsupported, w) ∧ AFloat.rem a b w = (.error .unsupported, w) :=
  ⟨rfl, rfl⟩

end generic

/-! ## C42: false -/

/-- C42 is false: `abs_sub` computes the absolute difference, `num::Float::abs_sub` the positive
difference. -/
theorem C42_abs_sub_is_not_positive_difference :
    ∃ (a b r : AFloat ℚ), (AFloat.absSub a b Demo.w0).1 = .ok r ∧ r.v ≠ max (a.v - b.v) 0 :=
  ⟨AFloat.new 1 0, AFloat.new 3 0, AFloat.new 2 0, by decide +kernel, by
    show (2 : ℚ) ≠ max (1 - 3) 0
    decide +kernel⟩

/-- What remains true of C42: it agrees whenever `a ≥ b`. -/
theorem C42_abs_sub_partial {K : Type} [Field K] [LinearOrder K] [IsStrictOrderedRing K] [Flt K]
    [LawfulFlt K] {a b r : AFloat K} {w w' : World K} (hab : b.v ≤ a.v)
    (h : AFloat.absSub a b w = (.ok r, w')) : r.v = max (a.v - b.v) 0 := by
  obtain ⟨d, w1, h1, h2⟩ := M.bind_ok_iff.mp h
  obtain ⟨e1, -⟩ := fromOp_ok rfl h1
  obtain ⟨e2, -⟩ := fromOp_ok rfl h2
  have e3 : d.v = a.v - b.v := by rw [e1]; exact LawfulFlt.sub_eq _ _
  have e4 : r.v = |d.v| := by rw [e2]; exact LawfulFlt.abs_eq _
  rw [e4, e3, abs_of_nonneg (by linarith), max_eq_left (by linarith)]

example : (AFloat.absSub (AFloat.new 3 0) (AFloat.new 1 0) Demo.w0).1 = .ok (AFloat.new 2 0) := by
  decide +kernel

/-! ## C44: false -/

/-- C44 is false: converting to `f64` goes through `to_i64` and drops the fractional part. -/
theorem C44_conversion_truncates :
    ∃ a : AFloat ℚ, a.v = 1 / 2 ∧ a.toF64 = some 0 := ⟨AFloat.new (1 / 2) 0, rfl, by decide +kernel⟩

/-- What remains true of C44: integers representable as `i64` are kept. -/
theorem C44_conversion_partial {S : Type} [Flt S] {a : AFloat S} {n : Int} (h : Flt.toI64 a.v = some n)
    (hn : Flt.ofInt n = a.v) : a.toF64 = some a.v := by
  unfold AFloat.toF64 AFloat.toI64
  rw [h, Option.map_some, hn]

example : (AFloat.new (-7) 0 : AFloat ℚ).toF64 = some (-7) := by decide +kernel

/-! ## C41

The methods are applied to the value and derivative of curves (`Jet`): the result carries the value and
derivative of the curve composed with the named real function. The operands may belong to any context;
the hypothesis is only that the method returned. -/

section real
variable {X Y Z : ℝ → ℝ} {t : ℝ} {a b c r : AFloat ℝ} {w w' : World ℝ}

theorem C41_neg (ha : Jet X t a) (h : AFloat.neg a w = (.ok r, w')) : Jet (fun s => -X s) t r := by
  obtain ⟨d, w1, h1, h2⟩ := M.bind_ok_iff.mp h
  have hd := jet_sub (t := t) (jet_const 0) (jet_const 1) h1
  have := jet_mul hd ha h2
  simpa using this

theorem C41_recip (ha : Jet X t a) (h0 : a.v ≠ 0) (h : AFloat.recip a w = (.ok r, w')) :
    Jet (fun s => (X s)⁻¹) t r := by
  have := jet_div (jet_const (1 : ℝ)) ha h0 h
  simpa using this

theorem C41_mul_add (ha : Jet X t a) (hb : Jet Y t b) (hc : Jet Z t c)
    (h : AFloat.mulAdd a b c w = (.ok r, w')) : Jet (fun s => X s * Y s + Z s) t r := by
  obtain ⟨d, w1, h1, h2⟩ := M.bind_ok_iff.mp h
  exact jet_add (jet_mul ha hb h1) hc h2

theorem C41_powi (ha : Jet X t a) (n : Int) (h0 : a.v ≠ 0 ∨ 1 ≤ n)
    (h : AFloat.powi a n w = (.ok r, w')) : Jet (fun s => X s ^ n) t r := by
  have := jet_powf_const (b := AFloat.ofScalar (Flt.ofInt n)) ha rfl
    (h0.imp id (fun h => by show (1 : ℝ) ≤ (n : ℝ); exact_mod_cast h)) h
  have e : (AFloat.ofScalar (Flt.ofInt n) : AFloat ℝ).v = (n : ℝ) := rfl
  rw [e] at this
  simpa [Real.rpow_intCast] using this

theorem C41_sqrt (ha : Jet X t a) (h0 : 0 < a.v) (h : AFloat.sqrt a w = (.ok r, w')) :
    Jet (fun s => Real.sqrt (X s)) t r := by
  have := jet_powf_const (b := AFloat.ofScalar Flt.half) ha rfl (Or.inl h0.ne') h
  have e : (AFloat.ofScalar Flt.half : AFloat ℝ).v = 1 / 2 := rfl
  rw [e] at this
  simpa [Real.sqrt_eq_rpow] using this

theorem C41_exp2 (ha : Jet X t a) (h : AFloat.exp2 a w = (.ok r, w')) : Jet (fun s => 2 ^ X s) t r := by
  have := jet_powf (jet_const (t := t) ((2 : Int) : ℝ)) ha (by
    show (0 : ℝ) < ((2 : Int) : ℝ); norm_num) h
  simpa using this

theorem C41_log (ha : Jet X t a) (hb : Jet Y t b) (h0 : 0 < a.v) (h1 : 0 < b.v) (h2 : b.v ≠ 1)
    (h : AFloat.log a b w = (.ok r, w')) : Jet (fun s => Real.logb (Y s) (X s)) t r := by
  obtain ⟨d, w1, k1, h⟩ := M.bind_ok_iff.mp h
  obtain ⟨e, w2, k2, h⟩ := M.bind_ok_iff.mp h
  have hd := jet_ln ha h0.ne' k1
  have he := jet_ln hb h1.ne' k2
  have hne : e.v ≠ 0 := by
    rw [← he.val, hb.val]
    exact Real.log_ne_zero_of_pos_of_ne_one h1 h2
  exact jet_div hd he hne h

theorem C41_log2 (ha : Jet X t a) (h0 : 0 < a.v) (h : AFloat.log2 a w = (.ok r, w')) :
    Jet (fun s => Real.logb 2 (X s)) t r := by
  have := C41_log ha (jet_const ((2 : Int) : ℝ)) h0 (by show (0 : ℝ) < ((2 : Int) : ℝ); norm_num)
    (by show ((2 : Int) : ℝ) ≠ 1; norm_num) h
  simpa using this

theorem C41_log10 (ha : Jet X t a) (h0 : 0 < a.v) (h : AFloat.log10 a w = (.ok r, w')) :
    Jet (fun s => Real.logb 10 (X s)) t r := by
  have := C41_log ha (jet_const ((10 : Int) : ℝ)) h0 (by show (0 : ℝ) < ((10 : Int) : ℝ); norm_num)
    (by show ((10 : Int) : ℝ) ≠ 1; norm_num) h
  simpa using this

theorem C41_hypot (ha : Jet X t a) (hb : Jet Y t b) (h0 : a.v ≠ 0 ∨ b.v ≠ 0)
    (h : AFloat.hypot a b w = (.ok r, w')) : Jet (fun s => Real.sqrt (X s ^ 2 + Y s ^ 2)) t r := by
  obtain ⟨d, w1, k1, h⟩ := M.bind_ok_iff.mp h
  obtain ⟨e, w2, k2, h⟩ := M.bind_ok_iff.mp h
  obtain ⟨g, w3, k3, h⟩ := M.bind_ok_iff.mp h
  have hd := C41_powi ha 2 (Or.inr (by norm_num)) k1
  have he := C41_powi hb 2 (Or.inr (by norm_num)) k2
  have hg := jet_add hd he k3
  have hpos : 0 < g.v := by
    rw [← hg.val, ha.val, hb.val]
    norm_cast
    rcases h0 with h0 | h0
    · have := sq_nonneg b.v; have := pow_pos (abs_pos.mpr h0) 2; rw [sq_abs] at this; linarith
    · have := sq_nonneg a.v; have := pow_pos (abs_pos.mpr h0) 2; rw [sq_abs] at this; linarith
  have := C41_sqrt hg hpos h
  have e2 : ∀ x : ℝ, x ^ (2 : ℤ) = x ^ 2 := fun x => by norm_cast
  simpa [e2] using this

theorem C41_sin_cos {rs : AFloat ℝ × AFloat ℝ} (ha : Jet X t a) (h : AFloat.sinCos a w = (.ok rs, w')) :
    Jet (fun s => Real.sin (X s)) t rs.1 ∧ Jet (fun s => Real.cos (X s)) t rs.2 := by
  obtain ⟨d, w1, k1, h⟩ := M.bind_ok_iff.mp h
  obtain ⟨e, w2, k2, h⟩ := M.bind_ok_iff.mp h
  rw [M.pure_apply] at h
  injection h with h _
  injection h with h
  subst h
  exact ⟨jet_sin ha k1, jet_cos ha k2⟩

/-- C41 for `cbrt`, restricted to positive arguments: the code computes `powf(1/3)`, which is not defined
for negative numbers (the real cube root is). -/
theorem C41_cbrt_partial (ha : Jet X t a) (h0 : 0 < a.v) (h : AFloat.cbrt a w = (.ok r, w')) :
    Jet (fun s => X s ^ (1 / 3 : ℝ)) t r ∧ r.v ^ 3 = a.v := by
  obtain ⟨d, w1, k1, h⟩ := M.bind_ok_iff.mp h
  have hd := jet_div (t := t) (jet_const (1 : ℝ)) (jet_const ((3 : Int) : ℝ))
    (by show ((3 : Int) : ℝ) ≠ 0; norm_num) k1
  have hdv : d.v = 1 / 3 := by rw [← hd.val]; norm_num
  have hd0 : d.dv = 0 := by
    have := (fromOp_ok rfl k1).2
    rw [this]
    show ((0 : ℝ) * ((3 : Int) : ℝ) - 1 * 0) / ((3 : Int) : ℝ) ^ (2 : ℤ) = 0
    norm_num
  have hj := jet_powf_const ha hd0 (Or.inl h0.ne') h
  rw [hdv] at hj
  refine ⟨hj, ?_⟩
  rw [← hj.val, ha.val, ← Real.rpow_natCast, ← Real.rpow_mul h0.le]
  norm_num

/-- C41 for `cbrt`, in any arithmetic: the value is `powf(1/3)`. So where `powf` of a negative base with a fractional
exponent is not a number, as IEEE 754 prescribes, `cbrt` of a negative number is not a number. -/
theorem C41_cbrt_value {S : Type} [Flt S] {a r : AFloat S} {w w' : World S} (h : AFloat.cbrt a w = (.ok r, w')) :
    r.v = Flt.powf a.v (Flt.div Flt.one (Flt.ofInt 3)) := by
  obtain ⟨d, w1, k1, h⟩ := M.bind_ok_iff.mp h
  have e1 : d.v = Flt.div Flt.one (Flt.ofInt 3) := (fromOp_ok rfl k1).1
  have e2 : r.v = Flt.powf a.v d.v := (fromOp_ok rfl h).1
  rw [e2, e1]

/-- C41 for `cbrt` of negative numbers: with the real power function, too, the value is wrong. -/
theorem C41_cbrt_counterexample (a r : AFloat ℝ) (w w' : World ℝ) (ha : a.v = -8)
    (h : AFloat.cbrt a w = (.ok r, w')) : r.v = 1 ∧ r.v ^ 3 ≠ a.v := by
  have e : r.v = (-8 : ℝ) ^ (1 / ((3 : Int) : ℝ)) := by rw [← ha]; exact C41_cbrt_value h
  have e1 : r.v = 1 := by
    rw [e, Real.rpow_def_of_neg (by norm_num)]
    have h8 : Real.log (-8) = 3 * Real.log 2 := by
      rw [Real.log_neg_eq_log, show (8 : ℝ) = 2 ^ 3 by norm_num, Real.log_pow]; norm_num
    have h3 : (1 / ((3 : Int) : ℝ)) * Real.pi = Real.pi / 3 := by push_cast; ring
    rw [h8, h3, Real.cos_pi_div_three, show 3 * Real.log 2 * (1 / ((3 : Int) : ℝ)) = Real.log 2 by push_cast; ring,
      Real.exp_log (by norm_num)]
    norm_num
  exact ⟨e1, by rw [e1, ha]; norm_num⟩

example : ∃ r w', AFloat.cbrt (AFloat.new (-8) 0 : AFloat ℝ) (HState.init : HState ℝ).world = (.ok r, w') := by
  refine ⟨_, _, (M.bind_ok (fromOp_free _ rfl rfl ?_)).trans (fromOp_free _ rfl rfl ?_)⟩ <;>
  · rintro b ⟨⟩; rfl

/-- C41 for `max`: the value is the maximum, the derivative the piecewise linear increment. -/
theorem C41_max (h : AFloat.max a b w = (.ok r, w')) :
    r.v = max a.v b.v ∧ r.dv = max (a.v + a.dv) (b.v + b.dv) - max a.v b.v := by
  obtain ⟨s, w1, k1, h⟩ := M.bind_ok_iff.mp h
  obtain ⟨d, w2, k2, h⟩ := M.bind_ok_iff.mp h
  obtain ⟨d', w3, k3, h⟩ := M.bind_ok_iff.mp h
  obtain ⟨s', w4, k4, h⟩ := M.bind_ok_iff.mp h
  obtain ⟨p1, q1⟩ := fromOp_ok rfl k1
  obtain ⟨p2, q2⟩ := fromOp_ok rfl k2
  obtain ⟨p3, q3⟩ := fromOp_ok rfl k3
  obtain ⟨p4, q4⟩ := fromOp_ok rfl k4
  obtain ⟨p5, q5⟩ := fromOp_ok rfl h
  replace p1 : s.v = a.v + b.v := p1
  replace q1 : s.dv = a.dv + b.dv := q1
  replace p2 : d.v = a.v - b.v := p2
  replace q2 : d.dv = a.dv - b.dv := q2
  replace p3 : d'.v = |d.v| := p3
  replace q3 : d'.dv = |d.v + d.dv| - |d.v| := q3
  replace p4 : s'.v = s.v + d'.v := p4
  replace q4 : s'.dv = s.dv + d'.dv := q4
  replace p5 : r.v = 1 / 2 * s'.v := p5
  replace q5 : r.dv = 0 * s'.v + 1 / 2 * s'.dv := q5
  have hm : ∀ x y : ℝ, max x y = 1 / 2 * (x + y + |x - y|) := by
    intro x y; rcases le_total x y with h | h
    · rw [max_eq_right h, abs_of_nonpos (by linarith)]; ring
    · rw [max_eq_left h, abs_of_nonneg (by linarith)]; ring
  have e : a.v + a.dv - (b.v + b.dv) = a.v - b.v + (a.dv - b.dv) := by ring
  refine ⟨by rw [p5, p4, p3, p2, p1, hm], ?_⟩
  rw [q5, q4, q3, q2, q1, p2, hm, hm, e]; ring

/-- C41 for `min`. -/
theorem C41_min (h : AFloat.min a b w = (.ok r, w')) :
    r.v = min a.v b.v ∧ r.dv = min (a.v + a.dv) (b.v + b.dv) - min a.v b.v := by
  obtain ⟨s, w1, k1, h⟩ := M.bind_ok_iff.mp h
  obtain ⟨d, w2, k2, h⟩ := M.bind_ok_iff.mp h
  obtain ⟨d', w3, k3, h⟩ := M.bind_ok_iff.mp h
  obtain ⟨s', w4, k4, h⟩ := M.bind_ok_iff.mp h
  obtain ⟨p1, q1⟩ := fromOp_ok rfl k1
  obtain ⟨p2, q2⟩ := fromOp_ok rfl k2
  obtain ⟨p3, q3⟩ := fromOp_ok rfl k3
  obtain ⟨p4, q4⟩ := fromOp_ok rfl k4
  obtain ⟨p5, q5⟩ := fromOp_ok rfl h
  replace p1 : s.v = a.v + b.v := p1
  replace q1 : s.dv = a.dv + b.dv := q1
  replace p2 : d.v = a.v - b.v := p2
  replace q2 : d.dv = a.dv - b.dv := q2
  replace p3 : d'.v = |d.v| := p3
  replace q3 : d'.dv = |d.v + d.dv| - |d.v| := q3
  replace p4 : s'.v = s.v - d'.v := p4
  replace q4 : s'.dv = s.dv - d'.dv := q4
  replace p5 : r.v = 1 / 2 * s'.v := p5
  replace q5 : r.dv = 0 * s'.v + 1 / 2 * s'.dv := q5
  have hm : ∀ x y : ℝ, min x y = 1 / 2 * (x + y - |x - y|) := by
    intro x y; rcases le_total x y with h | h
    · rw [min_eq_left h, abs_of_nonpos (by linarith)]; ring
    · rw [min_eq_right h, abs_of_nonneg (by linarith)]; ring
  have e : a.v + a.dv - (b.v + b.dv) = a.v - b.v + (a.dv - b.dv) := by ring
  refine ⟨by rw [p5, p4, p3, p2, p1, hm], ?_⟩
  rw [q5, q4, q3, q2, q1, p2, hm, hm, e]; ring

/-- C41: none of the methods panics on operands without context. -/
theorem C41_total_without_context (ha : a.ctx = none) (hb : b.ctx = none) (hc : c.ctx = none) (n : Int) :
    (∃ r, AFloat.neg a w = (.ok r, w)) ∧ (∃ r, AFloat.recip a w = (.ok r, w)) ∧
    (∃ r, AFloat.mulAdd a b c w = (.ok r, w)) ∧ (∃ r, AFloat.powi a n w = (.ok r, w)) ∧
    (∃ r, AFloat.sqrt a w = (.ok r, w)) ∧ (∃ r, AFloat.exp2 a w = (.ok r, w)) ∧
    (∃ r, AFloat.log a b w = (.ok r, w)) ∧ (∃ r, AFloat.log2 a w = (.ok r, w)) ∧
    (∃ r, AFloat.log10 a w = (.ok r, w)) ∧ (∃ r, AFloat.max a b w = (.ok r, w)) ∧
    (∃ r, AFloat.min a b w = (.ok r, w)) ∧ (∃ r, AFloat.cbrt a w = (.ok r, w)) ∧
    (∃ r, AFloat.hypot a b w = (.ok r, w)) ∧ (∃ r, AFloat.sinCos a w = (.ok r, w)) := by
  have hbin : ∀ (o : OpCode) (x y : AFloat ℝ), o.isBinary = true → x.ctx = none → y.ctx = none →
      ∃ r, AFloat.fromOp o x (some y) w = (.ok r, w) ∧ r.ctx = none := by
    intro o x y ho hx hy
    exact ⟨_, fromOp_free w (b := some y) ho hx (by rintro _ ⟨⟩; exact hy), rfl⟩
  have hun : ∀ (o : OpCode) (x : AFloat ℝ), o.isUnary = true → x.ctx = none →
      ∃ r, AFloat.fromOp o x none w = (.ok r, w) ∧ r.ctx = none := by
    intro o x ho hx
    exact ⟨_, fromOp_free w (b := none) ho hx (by rintro _ ⟨⟩), rfl⟩
  have hlog : ∀ x y : AFloat ℝ, x.ctx = none → y.ctx = none → ∃ r, AFloat.log x y w = (.ok r, w) := by
    intro x y hx hy
    obtain ⟨p, h1, hp⟩ := hun .Ln x rfl hx
    obtain ⟨q, h2, hq⟩ := hun .Ln y rfl hy
    obtain ⟨r, h3, -⟩ := hbin .Div p q rfl hp hq
    refine ⟨r, ?_⟩
    unfold AFloat.log AFloat.ln AFloat.div
    rw [M.bind_ok h1, M.bind_ok h2, h3]
  have hpow : ∀ (x : AFloat ℝ) (v : ℝ), x.ctx = none → ∃ r, AFloat.powf x (AFloat.ofScalar v) w = (.ok r, w) ∧
      r.ctx = none := fun x v hx => hbin .Powf x _ rfl hx rfl
  obtain ⟨s, hs, hs'⟩ := hbin .Add a b rfl ha hb
  obtain ⟨d, hd, hd'⟩ := hbin .Sub a b rfl ha hb
  obtain ⟨d2, hd2, hd2'⟩ := hun .Abs d rfl hd'
  refine ⟨?_, ?_, ?_, ?_, ?_, ?_, hlog a b ha hb, hlog a _ ha rfl, hlog a _ ha rfl, ?_, ?_, ?_, ?_, ?_⟩
  · obtain ⟨p, h1, hp⟩ := hbin .Sub AFloat.zero AFloat.one rfl rfl rfl
    obtain ⟨r, h2, -⟩ := hbin .Mul p a rfl hp ha
    exact ⟨r, by unfold AFloat.neg AFloat.sub AFloat.mul; rw [M.bind_ok h1, h2]⟩
  · obtain ⟨r, h2, -⟩ := hbin .Div AFloat.one a rfl rfl ha
    exact ⟨r, h2⟩
  · obtain ⟨p, h1, hp⟩ := hbin .Mul a b rfl ha hb
    obtain ⟨r, h2, -⟩ := hbin .Add p c rfl hp hc
    exact ⟨r, by unfold AFloat.mulAdd AFloat.add AFloat.mul; rw [M.bind_ok h1, h2]⟩
  · obtain ⟨r, h, -⟩ := hpow a _ ha; exact ⟨r, h⟩
  · obtain ⟨r, h, -⟩ := hpow a _ ha; exact ⟨r, h⟩
  · obtain ⟨r, h, -⟩ := hbin .Powf (AFloat.ofScalar (Flt.ofInt 2)) a rfl rfl ha; exact ⟨r, h⟩
  · obtain ⟨p, h1, hp⟩ := hbin .Add s d2 rfl hs' hd2'
    obtain ⟨r, h2, -⟩ := hbin .Mul (AFloat.ofScalar Flt.half) p rfl rfl hp
    exact ⟨r, by
      unfold AFloat.max AFloat.add AFloat.sub AFloat.abs AFloat.mul
      rw [M.bind_ok hs, M.bind_ok hd, M.bind_ok hd2, M.bind_ok h1, h2]⟩
  · obtain ⟨p, h1, hp⟩ := hbin .Sub s d2 rfl hs' hd2'
    obtain ⟨r, h2, -⟩ := hbin .Mul (AFloat.ofScalar Flt.half) p rfl rfl hp
    exact ⟨r, by
      unfold AFloat.min AFloat.add AFloat.sub AFloat.abs AFloat.mul
      rw [M.bind_ok hs, M.bind_ok hd, M.bind_ok hd2, M.bind_ok h1, h2]⟩
  · obtain ⟨p, h1, hp⟩ := hbin .Div AFloat.one (AFloat.ofScalar (Flt.ofInt 3)) rfl rfl rfl
    obtain ⟨r, h2, -⟩ := hbin .Powf a p rfl ha hp
    exact ⟨r, by unfold AFloat.cbrt AFloat.div AFloat.powf; rw [M.bind_ok h1, h2]⟩
  · obtain ⟨p, h1, hp⟩ := hpow a (Flt.ofInt 2) ha
    obtain ⟨q, h2, hq⟩ := hpow b (Flt.ofInt 2) hb
    obtain ⟨u, h3, hu⟩ := hbin .Add p q rfl hp hq
    obtain ⟨r, h4, -⟩ := hpow u Flt.half hu
    exact ⟨r, by
      unfold AFloat.hypot AFloat.powi AFloat.sqrt AFloat.add
      rw [M.bind_ok h1, M.bind_ok h2, M.bind_ok h3, h4]⟩
  · obtain ⟨p, h1, hp⟩ := hun .Sin a rfl ha
    obtain ⟨q, h2, hq⟩ := hun .Cos a rfl ha
    exact ⟨(p, q), by unfold AFloat.sinCos AFloat.sin AFloat.cos; rw [M.bind_ok h1, M.bind_ok h2]; rfl⟩

/-- Jets exist: `s ↦ 2 + 3 s` at `0`. -/
example : Jet (fun s => 2 + 3 * s) 0 (AFloat.new 2 3) :=
  ⟨by simp [AFloat.new], by simpa [AFloat.new] using ((hasDerivAt_id (0 : ℝ)).const_mul 3).const_add 2⟩

end real
end Adv.Props
