import Verif.Spec.Rounding
import Mathlib.Analysis.SpecialFunctions.Pow.Real

/-!
# Binary floating point arithmetics are rounded arithmetics
-/

namespace Adv

theorem fl_error (p : ℕ) (a : ℝ) : Approximates ((2 : ℝ)⁻¹ ^ p) (fl p a) a := by
  unfold Approximates fl
  by_cases ha : a = 0
  · subst ha; simp
  set e : ℤ := (p : ℤ) - 1 - Int.log 2 |a| with he
  have h2 : (0 : ℝ) < 2 ^ (-e) := by positivity
  have h1 := abs_sub_round (a * 2 ^ e)
  have h3 : (round (a * 2 ^ e) : ℝ) * 2 ^ (-e) - a = -((a * 2 ^ e - round (a * 2 ^ e)) * 2 ^ (-e)) := by
    have : a * 2 ^ e * 2 ^ (-e) = a := by rw [mul_assoc, ← zpow_add₀ (by norm_num)]; simp
    rw [sub_mul, this]; ring
  simp only
  rw [h3, abs_neg, abs_mul, abs_of_pos h2]
  have h4 : (2 : ℝ) ^ (Int.log 2 |a|) ≤ |a| := by
    have := Int.zpow_log_le_self (R := ℝ) (b := 2) (by norm_num) (abs_pos.mpr ha)
    exact_mod_cast this
  calc |a * 2 ^ e - round (a * 2 ^ e)| * 2 ^ (-e) ≤ 1 / 2 * 2 ^ (-e) := mul_le_mul_of_nonneg_right h1 h2.le
    _ = (2 : ℝ)⁻¹ ^ p * 2 ^ (Int.log 2 |a|) := by
        have : -e = -(p : ℤ) + 1 + Int.log 2 |a| := by rw [he]; ring
        rw [this, zpow_add₀ (by norm_num), zpow_add₀ (by norm_num), zpow_neg, zpow_natCast, zpow_one, inv_pow]
        ring
    _ ≤ (2 : ℝ)⁻¹ ^ p * |a| := mul_le_mul_of_nonneg_left h4 (by positivity)

theorem fl_int {p : ℕ} (hp : 1 ≤ p) {m : ℤ} (hm : |(m : ℝ)| ≤ 2 ^ p) : fl p m = m := by
  unfold fl
  by_cases h0 : m = 0
  · subst h0; simp
  set e : ℤ := (p : ℤ) - 1 - Int.log 2 |(m : ℝ)| with he
  have hpos : (0 : ℝ) < |(m : ℝ)| := abs_pos.mpr (by exact_mod_cast h0)
  have hk : ∃ k : ℤ, (m : ℝ) * 2 ^ e = k := by
    rcases hm.lt_or_eq with hlt | heq
    · have hlog : Int.log 2 |(m : ℝ)| < p := by
        have h1 : (2 : ℝ) ^ (Int.log 2 |(m : ℝ)|) ≤ |(m : ℝ)| := by
          have := Int.zpow_log_le_self (R := ℝ) (b := 2) (by norm_num) hpos
          exact_mod_cast this
        by_contra hge
        have h2 : (2 : ℝ) ^ ((p : ℤ)) ≤ 2 ^ (Int.log 2 |(m : ℝ)|) := zpow_le_zpow_right₀ (by norm_num) (by omega)
        rw [zpow_natCast] at h2
        linarith
      obtain ⟨n, hn⟩ := Int.eq_ofNat_of_zero_le (a := e) (by omega)
      refine ⟨m * 2 ^ n, ?_⟩
      rw [hn]; push_cast; rfl
    · have hlog : Int.log 2 |(m : ℝ)| = p := by
        rw [heq, ← zpow_natCast]
        exact_mod_cast Int.log_zpow (R := ℝ) (b := 2) (by norm_num) (p : ℤ)
      have e1 : e = -1 := by rw [he, hlog]; ring
      have h3 : |m| = 2 ^ p := by exact_mod_cast heq
      obtain ⟨q, rfl⟩ : ∃ q, p = q + 1 := ⟨p - 1, by omega⟩
      rcases abs_choice m with h | h
      · refine ⟨2 ^ q, ?_⟩
        rw [h] at h3
        rw [e1, h3]; push_cast
        rw [pow_succ, zpow_neg_one]; ring
      · refine ⟨-2 ^ q, ?_⟩
        rw [h] at h3
        have h4 : m = -2 ^ (q + 1) := by omega
        rw [e1, h4]; push_cast
        rw [pow_succ, zpow_neg_one]; ring
  obtain ⟨k, hk⟩ := hk
  simp only
  rw [hk, round_intCast, ← hk, mul_assoc, ← zpow_add₀ (by norm_num)]
  simp

/-- The unit roundoff of `p` binary digits is `2⁻ᵖ`. -/
theorem binaryFlt_rounded {p : ℕ} (hp : 1 ≤ p) : Rounded (binaryFlt p) ((2 : ℝ)⁻¹ ^ p) where
  zero := rfl
  one := rfl
  eq a b := by show decide (a = b) = true ↔ _; exact decide_eq_true_iff
  lt a b := by show decide (a < b) = true ↔ _; exact decide_eq_true_iff
  add a b := fl_error p _
  sub a b := fl_error p _
  mul a b := fl_error p _
  div a b _ := fl_error p _
  neg a := by show |(-a) - (-a)| ≤ _; rw [sub_self, abs_zero]; positivity
  abs a := by show |(|a|) - (|a|)| ≤ _; rw [sub_self, abs_zero]; positivity
  sqrt a _ := fl_error p _
  sin a := fl_error p _
  cos a := fl_error p _
  tan a _ := fl_error p _
  exp a := fl_error p _
  ln a _ := fl_error p _
  asin a _ _ := fl_error p _
  acos a _ _ := fl_error p _
  atan a := fl_error p _
  powf a b _ := fl_error p _
  powf_int a n _ := by
    rw [← Real.rpow_intCast]; exact fl_error p _
  powi a n _ := fl_error p _
  pred n hn := by
    have h1 : |(n : ℝ)| < 2 ^ p := by
      rw [inv_pow, mul_inv_lt_iff₀ (by positivity), one_mul] at hn; exact hn
    have h2 : |n| < 2 ^ p := by exact_mod_cast h1
    have h3 : |n - 1| ≤ 2 ^ p := by
      rw [abs_le]; rw [abs_lt] at h2; constructor <;> omega
    have := fl_int hp (m := n - 1) (by exact_mod_cast h3)
    show fl p (n - 1) = n - 1
    push_cast at this
    exact this

/-! ## Bounded exponents -/

theorem Approximates.computes {u r s : ℝ} (hu : 0 ≤ u) (h : Approximates u r s) : Computes u r s := fun _ =>
  h.trans (mul_le_mul_of_nonneg_left (by linarith) hu)

/-- Arithmetics without underflow and overflow are floating point arithmetics. -/
theorem Rounded.floating {A : Flt ℝ} {u : ℝ} (h : Rounded A u) : Floating A u := by
  have hu : 0 ≤ u := by
    have := h.add 1 0
    unfold Approximates at this
    rw [add_zero, abs_one, mul_one] at this
    exact (abs_nonneg _).trans this
  have c : ∀ {r s : ℝ}, Approximates u r s → Computes u r s := fun h => h.computes hu
  exact ⟨h.zero, h.one, h.eq, h.lt, fun a b => c (h.add a b), fun a b => c (h.sub a b), fun a b => c (h.mul a b),
    fun a b k => c (h.div a b k), fun a => c (h.neg a), fun a => c (h.abs a), fun a k => c (h.sqrt a k),
    fun a => c (h.sin a), fun a => c (h.cos a), fun a k => c (h.tan a k), fun a => c (h.exp a), fun a k => c (h.ln a k),
    fun a k l => c (h.asin a k l), fun a k l => c (h.acos a k l), fun a => c (h.atan a), fun a b k => c (h.powf a b k),
    fun a n k => c (h.powf_int a n k), fun a n k => c (h.powi a n k), h.pred⟩

section bounded
variable {p : ℕ} {emin emax : ℤ} {ovf : ℝ → ℝ}

/-- The error of rounding with gradual underflow. -/
theorem round_error (h1 : emin ≤ -p) (a : ℝ) :
    |(round (a * 2 ^ (min ((p : ℤ) - 1 - Int.log 2 |a|) (-emin))) : ℝ) * 2 ^ (-(min ((p : ℤ) - 1 - Int.log 2 |a|) (-emin))) - a|
      ≤ (2 : ℝ)⁻¹ ^ p * (|a| + 1) := by
  rcases le_total ((p : ℤ) - 1 - Int.log 2 |a|) (-emin) with h | h
  · rw [min_eq_left h]
    have := fl_error p a
    unfold Approximates fl at this
    exact this.trans (mul_le_mul_of_nonneg_left (by linarith) (by positivity))
  · rw [min_eq_right h, neg_neg]
    have h2 : (0 : ℝ) < 2 ^ emin := by positivity
    have h3 : (round (a * 2 ^ (-emin)) : ℝ) * 2 ^ emin - a = -((a * 2 ^ (-emin) - round (a * 2 ^ (-emin))) * 2 ^ emin) := by
      have : a * 2 ^ (-emin) * 2 ^ emin = a := by rw [mul_assoc, ← zpow_add₀ (by norm_num)]; simp
      rw [sub_mul, this]; ring
    rw [h3, abs_neg, abs_mul, abs_of_pos h2]
    have h4 : (2 : ℝ) ^ emin ≤ 2⁻¹ ^ p := by
      have : (2 : ℝ) ^ emin ≤ 2 ^ (-(p : ℤ)) := zpow_le_zpow_right₀ (by norm_num) h1
      rwa [zpow_neg, zpow_natCast, ← inv_pow] at this
    have h5 : (0 : ℝ) ≤ 2⁻¹ ^ p * |a| := by positivity
    calc |a * 2 ^ (-emin) - round (a * 2 ^ (-emin))| * 2 ^ emin
        ≤ 1 / 2 * 2 ^ emin := mul_le_mul_of_nonneg_right (abs_sub_round _) h2.le
      _ ≤ (2 : ℝ)⁻¹ ^ p * (|a| + 1) := by linarith

theorem flB_error (h1 : emin ≤ -p) (h2 : p + 1 < emax) (a : ℝ) : Computes ((2 : ℝ)⁻¹ ^ p) (flB p emin emax ovf a) a := by
  intro ha
  have h3 := round_error (p := p) h1 a
  unfold flB
  simp only
  rw [if_neg]
  · exact h3
  · intro hc
    have hp : (0 : ℝ) < 2 ^ p := by positivity
    have h4 : |a| ≤ 2 ^ p := by
      rwa [inv_pow, mul_inv_le_iff₀ hp, one_mul] at ha
    have h5 : (2 : ℝ) ^ ((p : ℤ) + 2) ≤ 2 ^ emax := zpow_le_zpow_right₀ (by norm_num) (by omega)
    rw [zpow_add₀ (by norm_num), zpow_natCast] at h5
    have h6 := hc.trans (sub_le_iff_le_add.mp ((abs_sub_abs_le_abs_sub _ a).trans h3))
    have h7 : (2 : ℝ)⁻¹ ^ p * (|a| + 1) ≤ 2 := by
      have : (2 : ℝ)⁻¹ ^ p ≤ 1 := pow_le_one₀ (by norm_num) (by norm_num)
      rw [mul_add, mul_one, mul_comm]; linarith
    have h8 : (1 : ℝ) ≤ 2 ^ p := one_le_pow₀ (by norm_num)
    norm_num at h5
    linarith

theorem flB_int (hp : 1 ≤ p) (h1 : emin ≤ -p) (h2 : p + 1 < emax) {m : ℤ} (hm : |(m : ℝ)| ≤ 2 ^ p) :
    flB p emin emax ovf m = m := by
  have key : (round ((m : ℝ) * 2 ^ (min ((p : ℤ) - 1 - Int.log 2 |(m : ℝ)|) (-emin))) : ℝ) *
      2 ^ (-(min ((p : ℤ) - 1 - Int.log 2 |(m : ℝ)|) (-emin))) = m := by
    rcases le_total ((p : ℤ) - 1 - Int.log 2 |(m : ℝ)|) (-emin) with h | h
    · rw [min_eq_left h]
      exact fl_int hp hm
    · rw [min_eq_right h]
      obtain ⟨n, hn⟩ := Int.eq_ofNat_of_zero_le (a := -emin) (by omega)
      rw [hn]
      have : (m : ℝ) * 2 ^ ((n : ℕ) : ℤ) = ((m * 2 ^ n : ℤ) : ℝ) := by push_cast; rfl
      rw [this, round_intCast, ← this, mul_assoc, ← zpow_add₀ (by norm_num)]
      simp
  unfold flB
  simp only
  rw [key, if_neg]
  have h3 : (2 : ℝ) ^ (p : ℤ) < 2 ^ emax := zpow_lt_zpow_right₀ (by norm_num) (by omega)
  rw [zpow_natCast] at h3
  linarith

/-- Formats with bounded exponents are floating point arithmetics with unit roundoff `2⁻ᵖ`. -/
theorem ieeeFlt_floating (hp : 1 ≤ p) (h1 : emin ≤ -p) (h2 : p + 1 < emax) :
    Floating (ieeeFlt p emin emax ovf) ((2 : ℝ)⁻¹ ^ p) where
  zero := rfl
  one := rfl
  eq a b := by show decide (a = b) = true ↔ _; exact decide_eq_true_iff
  lt a b := by show decide (a < b) = true ↔ _; exact decide_eq_true_iff
  add a b := flB_error h1 h2 _
  sub a b := flB_error h1 h2 _
  mul a b := flB_error h1 h2 _
  div a b _ := flB_error h1 h2 _
  neg a := fun _ => by show |(-a) - (-a)| ≤ _; rw [sub_self, abs_zero]; positivity
  abs a := fun _ => by show |(|a|) - (|a|)| ≤ _; rw [sub_self, abs_zero]; positivity
  sqrt a _ := flB_error h1 h2 _
  sin a := flB_error h1 h2 _
  cos a := flB_error h1 h2 _
  tan a _ := flB_error h1 h2 _
  exp a := flB_error h1 h2 _
  ln a _ := flB_error h1 h2 _
  asin a _ _ := flB_error h1 h2 _
  acos a _ _ := flB_error h1 h2 _
  atan a := flB_error h1 h2 _
  powf a b _ := flB_error h1 h2 _
  powf_int a n _ := by
    rw [← Real.rpow_intCast]; exact flB_error h1 h2 _
  powi a n _ := flB_error h1 h2 _
  pred n hn := by
    have h3 : |(n : ℝ)| < 2 ^ p := by
      rw [inv_pow, mul_inv_lt_iff₀ (by positivity), one_mul] at hn; exact hn
    have h4 : |n| < 2 ^ p := by exact_mod_cast h3
    have h5 : |n - 1| ≤ 2 ^ p := by
      rw [abs_le]; rw [abs_lt] at h4; constructor <;> omega
    have := flB_int (ovf := ovf) hp h1 h2 (m := n - 1) (by exact_mod_cast h5)
    show flB p emin emax ovf (n - 1) = n - 1
    push_cast at this
    exact this

end bounded

end Adv
