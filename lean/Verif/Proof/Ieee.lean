import Verif.Spec.Ieee
import Verif.Proof.Binary

/-!
# IEEE arithmetic is a machine arithmetic
-/

namespace Adv.Ieee
open Classical

variable {p : ℕ} {emin emax : ℤ}

/-- Either the rounded number overflows, for any treatment of overflows, or it is the value of the result. -/
theorem rd_val (s : Bool) (a : ℝ) :
    (∀ ovf, flB p emin emax ovf a = ovf a) ∨ ∀ ovf, (rd p emin emax s a).val = some (flB p emin emax ovf a) := by
  unfold flB rd
  simp only
  by_cases h : (2 : ℝ) ^ emax ≤ |(round (a * 2 ^ (min ((p : ℤ) - 1 - Int.log 2 |a|) (-emin))) : ℝ) *
      2 ^ (-(min ((p : ℤ) - 1 - Int.log 2 |a|) (-emin)))|
  · left; intro ovf; rw [if_pos h]
  · right; intro ovf; rw [if_neg h, if_neg h]; rfl

theorem rd_computes (h1 : emin ≤ -p) (h2 : p + 1 < emax) (s : Bool) (a : ℝ) :
    ComputesM ((2 : ℝ)⁻¹ ^ p) (rd p emin emax s a).val a := by
  intro ha
  rcases rd_val (p := p) (emin := emin) (emax := emax) s a with h | h
  · exfalso
    have := flB_error (ovf := fun a => a + ((2 : ℝ)⁻¹ ^ p * (|a| + 1) + 1)) h1 h2 a ha
    rw [h, add_sub_cancel_left, abs_of_pos (by positivity)] at this
    linarith
  · exact ⟨_, h id, flB_error h1 h2 a ha⟩

theorem rd_int (hp : 1 ≤ p) (h1 : emin ≤ -p) (h2 : p + 1 < emax) (s : Bool) {m : ℤ} (hm : |(m : ℝ)| ≤ 2 ^ p) :
    (rd p emin emax s m).val = some (m : ℝ) := by
  rcases rd_val (p := p) (emin := emin) (emax := emax) s (m : ℝ) with h | h
  · exfalso
    have := flB_int (ovf := fun a => a + 1) hp h1 h2 hm
    rw [h] at this
    linarith
  · rw [h id, flB_int hp h1 h2 hm]

theorem powi_computes (h1 : emin ≤ -p) (h2 : p + 1 < emax) {s : Bool} {x : ℝ} {n : ℤ} (h : x ≠ 0 ∨ 0 ≤ n) :
    ComputesM ((2 : ℝ)⁻¹ ^ p) (powi p emin emax (num s x) n).val (x ^ n) := by
  unfold powi
  by_cases hn : n = 0
  · rw [if_pos hn, hn, zpow_zero]
    exact fun _ => ⟨1, rfl, by rw [sub_self, abs_zero]; positivity⟩
  · rw [if_neg hn]
    simp only
    rw [if_neg (by rintro ⟨h3, h4⟩; rcases h with h | h; exact h h3; omega)]
    exact rd_computes h1 h2 _ _

theorem flt_machine (hp : 1 ≤ p) (h1 : emin ≤ -p) (h2 : p + 1 < emax) :
    Machine val (flt p emin emax) ((2 : ℝ)⁻¹ ^ p) where
  zero := rfl
  one := rfl
  eq := by
    rintro (_ | _ | ⟨s, x⟩) (_ | _ | ⟨s', y⟩) a b ⟨⟩ ⟨⟩
    exact decide_eq_true_iff
  lt := by
    rintro (_ | _ | ⟨s, x⟩) (_ | _ | ⟨s', y⟩) a b ⟨⟩ ⟨⟩
    exact decide_eq_true_iff
  add := by
    rintro (_ | _ | ⟨s, x⟩) (_ | _ | ⟨s', y⟩) a b ⟨⟩ ⟨⟩
    exact rd_computes h1 h2 _ _
  sub := by
    rintro (_ | _ | ⟨s, x⟩) (_ | _ | ⟨s', y⟩) a b ⟨⟩ ⟨⟩
    rw [sub_eq_add_neg]
    exact rd_computes h1 h2 _ _
  mul := by
    rintro (_ | _ | ⟨s, x⟩) (_ | _ | ⟨s', y⟩) a b ⟨⟩ ⟨⟩
    exact rd_computes h1 h2 _ _
  div := by
    rintro (_ | _ | ⟨s, x⟩) (_ | _ | ⟨s', y⟩) a b ⟨⟩ ⟨⟩ hy
    show ComputesM _ (Ieee.div p emin emax (num s x) (num s' y)).val _
    unfold Ieee.div
    simp only [if_neg hy]
    exact rd_computes h1 h2 _ _
  neg := by
    rintro (_ | _ | ⟨s, x⟩) a ⟨⟩
    exact fun _ => ⟨-x, rfl, by rw [sub_self, abs_zero]; positivity⟩
  abs := by
    rintro (_ | _ | ⟨s, x⟩) a ⟨⟩
    exact fun _ => ⟨|x|, rfl, by rw [sub_self, abs_zero]; positivity⟩
  sqrt := by
    rintro (_ | _ | ⟨s, x⟩) a ⟨⟩ hx
    show ComputesM _ (if x < 0 then nan else rd p emin emax s (Real.sqrt x)).val _
    rw [if_neg (not_lt.mpr hx)]
    exact rd_computes h1 h2 _ _
  sin := by
    rintro (_ | _ | ⟨s, x⟩) a ⟨⟩
    exact rd_computes h1 h2 _ _
  cos := by
    rintro (_ | _ | ⟨s, x⟩) a ⟨⟩
    exact rd_computes h1 h2 _ _
  tan := by
    rintro (_ | _ | ⟨s, x⟩) a ⟨⟩ _
    exact rd_computes h1 h2 _ _
  exp := by
    rintro (_ | _ | ⟨s, x⟩) a ⟨⟩
    exact rd_computes h1 h2 _ _
  ln := by
    rintro (_ | _ | ⟨s, x⟩) a ⟨⟩ hx
    show ComputesM _ (if x < 0 then nan else if x = 0 then inf true else rd p emin emax false (Real.log x)).val _
    rw [if_neg (not_lt.mpr hx.le), if_neg hx.ne']
    exact rd_computes h1 h2 _ _
  asin := by
    rintro (_ | _ | ⟨s, x⟩) a ⟨⟩ hx hy
    show ComputesM _ (if |x| ≤ 1 then rd p emin emax s (Real.arcsin x) else nan).val _
    rw [if_pos (abs_le.mpr ⟨hx, hy⟩)]
    exact rd_computes h1 h2 _ _
  acos := by
    rintro (_ | _ | ⟨s, x⟩) a ⟨⟩ hx hy
    show ComputesM _ (if |x| ≤ 1 then rd p emin emax false (Real.arccos x) else nan).val _
    rw [if_pos (abs_le.mpr ⟨hx, hy⟩)]
    exact rd_computes h1 h2 _ _
  atan := by
    rintro (_ | _ | ⟨s, x⟩) a ⟨⟩
    exact rd_computes h1 h2 _ _
  powf := by
    rintro (_ | _ | ⟨s, x⟩) (_ | _ | ⟨s', y⟩) a b ⟨⟩ ⟨⟩ hx
    show ComputesM _ (Ieee.powf p emin emax (num s x) (num s' y)).val _
    unfold Ieee.powf
    simp only
    by_cases h : ∃ n : ℤ, y = n
    · rw [dif_pos h]
      have e : x ^ y = x ^ h.choose := by
        rw [← Real.rpow_intCast]; exact congrArg _ h.choose_spec
      rw [e]
      exact powi_computes h1 h2 (.inl hx.ne')
    · rw [dif_neg h, if_neg (not_lt.mpr hx.le), if_neg (fun k => hx.ne' k.1)]
      exact rd_computes h1 h2 _ _
  powf_int := by
    rintro (_ | _ | ⟨s, x⟩) (_ | _ | ⟨s', b⟩) a n ⟨⟩ ⟨⟩ hx
    show ComputesM _ (Ieee.powf p emin emax (num s x) (num s' n)).val _
    unfold Ieee.powf
    simp only
    have h : ∃ m : ℤ, (n : ℝ) = m := ⟨n, rfl⟩
    rw [dif_pos h]
    have e : h.choose = n := by
      have := h.choose_spec
      exact_mod_cast this.symm
    rw [e]
    exact powi_computes h1 h2 hx
  powi := by
    rintro (_ | _ | ⟨s, x⟩) a n ⟨⟩ hx
    exact powi_computes h1 h2 hx
  pred := by
    rintro (_ | _ | ⟨s, b⟩) n ⟨⟩ hn
    have h3 : |(n : ℝ)| < 2 ^ p := by
      rw [inv_pow, mul_inv_lt_iff₀ (by positivity), one_mul] at hn; exact hn
    have h4 : |n| < 2 ^ p := by exact_mod_cast h3
    have h5 : |n - 1| ≤ 2 ^ p := by
      rw [abs_le]; rw [abs_lt] at h4; constructor <;> omega
    show (rd p emin emax _ ((n : ℝ) + -1)).val = _
    have := rd_int hp h1 h2 (sgn (num s n) && sgn (num (!false) (-1))) (m := n - 1) (by exact_mod_cast h5)
    push_cast at this
    exact this

end Adv.Ieee
