import Verif.Proof.CkptArith

/-! # The starting estimate of `find_t`: Stirling's inequality -/

namespace Adv.Ckpt
open Adv
open Nat (factorial)

/-- `(t+1)⋯(t+c) ≤ (t + (c+1)/2)^c`. -/
theorem prod_le_mean (t c : ℕ) :
    ∏ i ∈ Finset.range c, ((t : ℝ) + 1 + i) ≤ ((t : ℝ) + (c + 1) / 2) ^ c := by
  have h0 : ∀ i ∈ Finset.range c, (0 : ℝ) ≤ (t : ℝ) + 1 + i := fun i _ => by positivity
  refine le_of_pow_le_pow_left₀ (n := 2) (by omega) (by positivity) ?_
  calc (∏ i ∈ Finset.range c, ((t : ℝ) + 1 + i)) ^ 2
      = (∏ i ∈ Finset.range c, ((t : ℝ) + 1 + i)) * ∏ i ∈ Finset.range c, ((t : ℝ) + 1 + (c - 1 - i : ℕ)) := by
        rw [Finset.prod_range_reflect (fun i => (t : ℝ) + 1 + (i : ℕ)), sq]
    _ = ∏ i ∈ Finset.range c, (((t : ℝ) + 1 + i) * ((t : ℝ) + 1 + (c - 1 - i : ℕ))) := by
        rw [Finset.prod_mul_distrib]
    _ ≤ ∏ _i ∈ Finset.range c, ((t : ℝ) + (c + 1) / 2) ^ 2 := by
        apply Finset.prod_le_prod
        · intro i _; positivity
        · intro i hi
          rw [Finset.mem_range] at hi
          have : ((c - 1 - i : ℕ) : ℝ) = c - 1 - i := by
            rw [Nat.cast_sub (by omega), Nat.cast_sub (by omega)]; simp
          rw [this]
          nlinarith [sq_nonneg ((c : ℝ) - 1 - 2 * i)]
    _ = (((t : ℝ) + (c + 1) / 2) ^ c) ^ 2 := by
        rw [Finset.prod_const, Finset.card_range, ← pow_mul, ← pow_mul, mul_comm]

theorem choose_mul_factorial (t c : ℕ) :
    (Nat.choose (c + t) c : ℝ) * (factorial c : ℝ) = ∏ i ∈ Finset.range c, ((t : ℝ) + 1 + i) := by
  induction c with
  | zero => simp
  | succ c ih =>
    rw [Finset.prod_range_succ, ← ih]
    have h := Nat.add_one_mul_choose_eq (c + t) c
    have h' : ((c : ℝ) + t + 1) * (Nat.choose (c + t) c : ℝ) = (Nat.choose (c + t + 1) (c + 1) : ℝ) * (c + 1) := by
      exact_mod_cast h
    rw [show c + 1 + t = c + t + 1 by omega, Nat.factorial_succ]
    push_cast
    linear_combination -(factorial c : ℝ) * h'

/-- The exact estimate is below the number of repetitions, with a margin. -/
theorem exactEst_le {c r t : ℕ} (hc : 1 ≤ c) (h : r ≤ Nat.choose (c + t) c) :
    exactEst c r ≤ t - ((c : ℝ) - 1) / 2 := by
  have hc0 : (0 : ℝ) < c := by exact_mod_cast hc
  have hst := Stirling.le_factorial_stirling c
  have hf : (0 : ℝ) < factorial c := by exact_mod_cast Nat.factorial_pos c
  have hr : (r : ℝ) ≤ (Nat.choose (c + t) c : ℝ) := by exact_mod_cast h
  have h1 : (r : ℝ) * factorial c ≤ ((t : ℝ) + (c + 1) / 2) ^ c := by
    calc (r : ℝ) * factorial c ≤ (Nat.choose (c + t) c : ℝ) * factorial c :=
          mul_le_mul_of_nonneg_right hr hf.le
      _ ≤ _ := by rw [choose_mul_factorial]; exact prod_le_mean t c
  have h2 : Real.sqrt (2 * Real.pi * c) * r * (c / Real.exp 1) ^ c ≤ ((t : ℝ) + (c + 1) / 2) ^ c := by
    refine le_trans ?_ h1
    have := mul_le_mul_of_nonneg_left hst (show (0 : ℝ) ≤ r by positivity)
    linarith
  have hx0 : 0 ≤ Real.sqrt (2 * Real.pi * c) * r := by positivity
  have hroot : ((Real.sqrt (2 * Real.pi * c) * r) ^ (1 / (c : ℝ))) ^ c = Real.sqrt (2 * Real.pi * c) * r := by
    rw [← Real.rpow_natCast, ← Real.rpow_mul hx0, one_div, inv_mul_cancel₀ hc0.ne', Real.rpow_one]
  have h3 : ((Real.sqrt (2 * Real.pi * c) * r) ^ (1 / (c : ℝ)) * (c / Real.exp 1)) ^ c ≤
      ((t : ℝ) + (c + 1) / 2) ^ c := by rw [mul_pow, hroot]; exact h2
  have h4 := le_of_pow_le_pow_left₀ (by omega : c ≠ 0) (by positivity) h3
  unfold exactEst
  have h5 : Real.exp (-1) * c * (Real.sqrt (2 * Real.pi * c) * r) ^ (1 / (c : ℝ)) =
      (Real.sqrt (2 * Real.pi * c) * r) ^ (1 / (c : ℝ)) * (c / Real.exp 1) := by
    rw [Real.exp_neg]; field_simp
  rw [h5]
  linarith

/-- An estimate computed with an error of at most one half is sound. -/
theorem soundEst_of_approx {est : Int → Int → Int} {approx : ℕ → ℕ → ℝ}
    (hest : ∀ c r : ℕ, est c r = ⌈approx c r⌉)
    (h : ∀ c r : ℕ, 2 ≤ c → c < 2 ^ 63 → 1 ≤ r → r < 2 ^ 63 → |approx c r - exactEst c r| ≤ 1 / 2) : SoundEst est := by
  intro c r hc hc' hr hr' t ht hle
  rw [hest, Int.ceil_le]
  have h1 := exactEst_le (by omega) hle
  have h2 := (abs_le.mp (h c r hc hc' hr hr')).2
  have hc2 : (2 : ℝ) ≤ c := by exact_mod_cast hc
  push_cast
  linarith

end Adv.Ckpt
