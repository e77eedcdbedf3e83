import Verif.Proof.CkptEst
import Verif.Proof.Binary
import Mathlib.Analysis.Convex.SpecificFunctions.Basic

/-! # Rounding errors of the starting estimate of `find_t` -/

namespace Adv.Ckpt
open Adv

/-- The least number of repetitions is small. -/
theorem IsLeastT.small {c r t : ℕ} (h : IsLeastT c r t) (hc : 2 ≤ c) (hr : 1 ≤ r) (hr' : r < 2 ^ 63) : t < 2 ^ 33 := by
  by_contra hlt
  have h1 := h.pred hr (show t - 1 < t by have := h.1; omega)
  unfold B at h1
  rw [if_neg (by omega)] at h1
  obtain ⟨s, hs⟩ : ∃ s, t - 1 = s := ⟨_, rfl⟩
  rw [hs] at h1
  have h2 : Nat.choose (s + 2) s ≤ Nat.choose (c + s) s := Nat.choose_le_choose s (by omega)
  rw [Nat.choose_symm_add, Nat.choose_two_right, show s + 2 - 1 = s + 1 by omega] at h2
  rw [Nat.choose_symm_add] at h1
  have h3 : 2 ^ 32 ≤ s := by omega
  have h4 : 2 ^ 32 * 2 ^ 32 ≤ (s + 2) * (s + 1) := Nat.mul_le_mul (by omega) (by omega)
  have h5 : 2 ^ 32 * 2 ^ 32 = 2 * 2 ^ 63 := by norm_num
  omega

theorem _root_.Adv.Approximates.upper {u r s : ℝ} (h : Approximates u r s) (hs : 0 ≤ s) : r ≤ (1 + u) * s := by
  have := (abs_le.mp h).2
  rw [abs_of_nonneg hs] at this
  linarith

theorem _root_.Adv.Approximates.lower {u r s : ℝ} (h : Approximates u r s) (hs : 0 ≤ s) : (1 - u) * s ≤ r := by
  have := (abs_le.mp h).1
  rw [abs_of_nonneg hs] at this
  linarith

/-- A power with erroneous base and exponent. -/
theorem power_le {u c X base expo : ℝ} (hu0 : 0 ≤ u) (hu : u ≤ 1 / 1000) (hcr : 2 ≤ c) (hX1 : 1 ≤ X)
    (hX2 : X ≤ 2 ^ 96) (hb0 : 0 < base) (hb : base ≤ (1 + u) ^ 6 * X) (he0 : 0 < expo) (he : expo ≤ (1 + 3 * u) / c) :
    base ^ expo ≤ (1 + u) ^ 6 * (X ^ (1 / c) * (1 + u) ^ 144) := by
  have hg1 : 1 ≤ 1 + u := by linarith
  have hY1 : (1 : ℝ) ≤ (1 + u) ^ 6 := one_le_pow₀ hg1
  have h2 : base ^ expo ≤ ((1 + u) ^ 6 * X) ^ ((1 + 3 * u) / c) :=
    (Real.rpow_le_rpow hb0.le hb he0.le).trans
      (Real.rpow_le_rpow_of_exponent_le (by nlinarith) he)
  have h3 : ((1 + u) ^ 6) ^ ((1 + 3 * u) / c) ≤ (1 + u) ^ 6 := by
    have : (1 + 3 * u) / c ≤ 1 := by
      rw [div_le_one (by linarith)]
      linarith
    simpa using Real.rpow_le_rpow_of_exponent_le hY1 this
  have h4 : X ^ ((1 + 3 * u) / c) ≤ X ^ (1 / c) * (1 + u) ^ 144 := by
    have e : (1 + 3 * u) / c = 1 / c + 3 * u / c := by ring
    rw [e, Real.rpow_add (by linarith)]
    refine mul_le_mul_of_nonneg_left ?_ (Real.rpow_nonneg (by linarith) _)
    have h5 : 3 * u / c ≤ 3 / 2 * u := by
      rw [div_le_iff₀ (by linarith)]
      nlinarith
    calc X ^ (3 * u / c) ≤ X ^ (3 / 2 * u) := Real.rpow_le_rpow_of_exponent_le hX1 h5
      _ ≤ (2 ^ 96 : ℝ) ^ (3 / 2 * u) := Real.rpow_le_rpow (by linarith) hX2 (by positivity)
      _ = ((2 : ℝ) ^ u) ^ (144 : ℕ) := by
        rw [← Real.rpow_natCast 2 96, ← Real.rpow_mul (by norm_num), ← Real.rpow_natCast _ 144,
          ← Real.rpow_mul (by norm_num)]
        congr 1
        push_cast
        ring
      _ ≤ (1 + u) ^ 144 := by
        refine pow_le_pow_left₀ (Real.rpow_nonneg (by norm_num) _) ?_ _
        have := rpow_one_add_le_one_add_mul_self (s := 1) (by norm_num) hu0 (by linarith : u ≤ 1)
        norm_num at this
        linarith
  refine h2.trans ?_
  rw [Real.mul_rpow (by positivity) (by linarith)]
  exact mul_le_mul h3 h4 (Real.rpow_nonneg (by linarith) _) (by positivity)

theorem pow157 {u : ℝ} (hu0 : 0 ≤ u) (hu : u ≤ 1 / 1000) : (1 + u) ^ 157 ≤ 1 + 400 * u := by
  have h1 : (1 + u) ^ 157 ≤ Real.exp (157 * u) := by
    have := pow_le_pow_left₀ (by linarith) (by linarith [Real.add_one_le_exp u] : 1 + u ≤ Real.exp u) 157
    rw [← Real.exp_nat_mul] at this
    exact_mod_cast this
  have h2 := (abs_le.mp (Real.abs_exp_sub_one_le (x := 157 * u) (by rw [abs_of_nonneg (by linarith only [hu0])]; linarith only [hu]))).2
  rw [abs_of_nonneg (by linarith only [hu0])] at h2
  refine h1.trans ?_
  linarith only [h2, hu0]

/-- The computed estimate does not exceed the exact one by much. -/
theorem estimate_le {A : Flt ℝ} {u pi : ℝ} (hA : Rounded A u) (hu0 : 0 ≤ u) (hu : u ≤ 1 / 1000)
    (hpi : Approximates u pi Real.pi)
    (hint : ∀ n : ℕ, n < 2 ^ 63 → Approximates u (A.ofInt n) n) {c r : ℕ} (hc : 2 ≤ c) (hc' : c < 2 ^ 63)
    (hr : 1 ≤ r) (hr' : r < 2 ^ 63) :
    A.sub (A.mul (A.mul (A.exp (A.neg A.one)) (A.ofInt c)) (A.powf (A.mul (A.sqrt (A.mul (A.mul (A.ofInt 2) pi)
      (A.ofInt c))) (A.ofInt r)) (A.div A.one (A.ofInt c)))) (A.ofInt c) ≤
      max 0 ((1 + u) * ((1 + 400 * u) * (exactEst c r + c) - (1 - u) * c)) := by
  have hcr : (2 : ℝ) ≤ c := by exact_mod_cast hc
  have hrr : (1 : ℝ) ≤ r := by exact_mod_cast hr
  have hc63 : (c : ℝ) ≤ 2 ^ 63 := by exact_mod_cast hc'.le
  have hr63 : (r : ℝ) ≤ 2 ^ 63 := by exact_mod_cast hr'.le
  have hpi3 := Real.two_le_pi
  have hpi4 := Real.pi_le_four
  have hg : 0 ≤ 1 + u := by linarith
  have hg1 : 1 ≤ 1 + u := by linarith
  have hl : 0 < 1 - u := by linarith
  -- the integers
  have kc := hint c hc'
  have kr := hint r hr'
  have k2 : Approximates u (A.ofInt 2) 2 := by simpa using hint 2 (by norm_num)
  generalize A.ofInt (c : ℤ) = c' at *
  generalize A.ofInt (r : ℤ) = r' at *
  generalize A.ofInt 2 = two at *
  have c1 := kc.upper (by linarith)
  have c0 := kc.lower (by linarith)
  have r1 := kr.upper (by linarith)
  have r0 := kr.lower (by linarith)
  have two1 := k2.upper (by norm_num)
  have two0 := k2.lower (by norm_num)
  have p1 := hpi.upper (by linarith)
  have p0 := hpi.lower (by linarith)
  have hcpos : 0 < c' := by nlinarith
  have hrpos : 0 < r' := by nlinarith
  have htpos : 0 < two := by nlinarith
  have hppos : 0 < pi := by nlinarith
  -- products only grow by the factors of their parts
  have pos : ∀ {x s : ℝ}, Approximates u x s → 0 < s → 0 < x := fun h hs =>
    lt_of_lt_of_le (mul_pos hl hs) (h.lower hs.le)
  have up : ∀ {x y X Y : ℝ} {i j : ℕ}, 0 < x → 0 < y → x ≤ (1 + u) ^ i * X → y ≤ (1 + u) ^ j * Y →
      0 < A.mul x y ∧ A.mul x y ≤ (1 + u) ^ (i + j + 1) * (X * Y) := by
    intro x y X Y i j hx hy hX hY
    refine ⟨pos (hA.mul x y) (mul_pos hx hy), ((hA.mul x y).upper (mul_pos hx hy).le).trans ?_⟩
    have : x * y ≤ ((1 + u) ^ i * X) * ((1 + u) ^ j * Y) := mul_le_mul hX hY hy.le (hx.le.trans hX)
    calc (1 + u) * (x * y) ≤ (1 + u) * (((1 + u) ^ i * X) * ((1 + u) ^ j * Y)) := mul_le_mul_of_nonneg_left this hg
      _ = _ := by ring
  -- the factor in front
  have e0 : 0 < A.exp (A.neg A.one) ∧ A.exp (A.neg A.one) ≤ (1 + u) ^ 3 * Real.exp (-1) := by
    have h1 := hA.neg A.one
    rw [hA.one] at h1 ⊢
    refine ⟨pos (hA.exp _) (Real.exp_pos _), ((hA.exp _).upper (Real.exp_pos _).le).trans ?_⟩
    have h2 : A.neg 1 ≤ -1 + u := by
      have := (abs_le.mp h1).2
      simp only [abs_neg, abs_one, mul_one] at this
      linarith
    have h3 : Real.exp (A.neg 1) ≤ Real.exp (-1) * Real.exp u := by
      rw [← Real.exp_add]; exact Real.exp_le_exp.mpr h2
    have h4 : Real.exp u ≤ (1 + u) ^ 2 := by
      have h5 := Real.add_one_le_exp (-u)
      have h6 : Real.exp u * Real.exp (-u) = 1 := by rw [← Real.exp_add]; simp
      have h7 : Real.exp u * (1 - u) ≤ 1 := by
        rw [← h6]; exact mul_le_mul_of_nonneg_left (by linarith) (Real.exp_pos u).le
      have h8 : 1 ≤ (1 + u) ^ 2 * (1 - u) := by nlinarith [mul_nonneg hu0 hu0, mul_nonneg (mul_nonneg hu0 hu0) hu0]
      exact le_of_mul_le_mul_right (h7.trans h8) hl
    calc (1 + u) * Real.exp (A.neg 1) ≤ (1 + u) * (Real.exp (-1) * Real.exp u) := mul_le_mul_of_nonneg_left h3 hg
      _ ≤ (1 + u) * (Real.exp (-1) * (1 + u) ^ 2) :=
        mul_le_mul_of_nonneg_left (mul_le_mul_of_nonneg_left h4 (Real.exp_pos _).le) hg
      _ = _ := by ring
  have c1' : c' ≤ (1 + u) ^ 1 * c := by simpa using c1
  have r1' : r' ≤ (1 + u) ^ 1 * r := by simpa using r1
  have two1' : two ≤ (1 + u) ^ 1 * 2 := by simpa using two1
  have p1' : pi ≤ (1 + u) ^ 1 * Real.pi := by simpa using p1
  have f0 := up e0.1 hcpos e0.2 c1'
  generalize A.mul (A.exp (A.neg A.one)) c' = front at *
  -- the base of the power
  have q1 := up htpos hppos two1' p1'
  have q2 := up q1.1 hcpos q1.2 c1'
  generalize A.mul (A.mul two pi) c' = q at *
  have s0 : 0 < A.sqrt q ∧ A.sqrt q ≤ (1 + u) ^ 4 * Real.sqrt (2 * Real.pi * c) := by
    refine ⟨pos (hA.sqrt q q2.1.le) (Real.sqrt_pos.mpr q2.1), ((hA.sqrt q q2.1.le).upper (Real.sqrt_nonneg _)).trans ?_⟩
    have h1 : q ≤ ((1 + u) ^ 3) ^ 2 * (2 * Real.pi * c) := by
      refine q2.2.trans (mul_le_mul_of_nonneg_right ?_ (by positivity))
      rw [← pow_mul]
      exact pow_le_pow_right₀ hg1 (by norm_num)
    have h2 := Real.sqrt_le_sqrt h1
    rw [Real.sqrt_mul (by positivity), Real.sqrt_sq (by positivity)] at h2
    calc (1 + u) * Real.sqrt q ≤ (1 + u) * ((1 + u) ^ 3 * Real.sqrt (2 * Real.pi * c)) := mul_le_mul_of_nonneg_left h2 hg
      _ = _ := by ring
  have b0 := up s0.1 hrpos s0.2 r1'
  generalize A.mul (A.sqrt q) r' = base at *
  obtain ⟨X, hX⟩ : ∃ X, Real.sqrt (2 * Real.pi * c) * r = X := ⟨_, rfl⟩
  have hest : exactEst c r + c = Real.exp (-1) * c * X ^ (1 / (c : ℝ)) := by rw [exactEst, hX]; ring
  rw [hX] at b0
  have hX1 : 1 ≤ X := by
    have : 1 ≤ Real.sqrt (2 * Real.pi * c) := by
      rw [Real.one_le_sqrt]
      have := mul_le_mul hpi3 hcr (by norm_num) (by linarith)
      linarith
    rw [← hX]
    exact one_le_mul_of_one_le_of_one_le this hrr
  have hX2 : X ≤ 2 ^ 96 := by
    have h1 : Real.sqrt (2 * Real.pi * c) ≤ 2 ^ 33 := by
      rw [Real.sqrt_le_left (by positivity)]
      have := mul_le_mul hpi4 hc63 (by linarith) (by norm_num)
      calc 2 * Real.pi * c = 2 * (Real.pi * c) := by ring
        _ ≤ 2 * (4 * 2 ^ 63) := mul_le_mul_of_nonneg_left this (by norm_num)
        _ = _ := by norm_num
    rw [← hX]
    calc Real.sqrt (2 * Real.pi * c) * r ≤ 2 ^ 33 * 2 ^ 63 := mul_le_mul h1 hr63 (by linarith) (by positivity)
      _ = _ := by norm_num
  -- the exponent
  have x0 : 0 < A.div A.one c' ∧ A.div A.one c' ≤ (1 + 3 * u) / c := by
    have h1 := hA.div A.one c' hcpos.ne'
    rw [hA.one] at h1 ⊢
    refine ⟨pos h1 (by positivity), (h1.upper (by positivity)).trans ?_⟩
    rw [mul_one_div, div_le_div_iff₀ hcpos (by linarith)]
    have h2 : (1 + u) ≤ (1 + 3 * u) * (1 - u) := by nlinarith
    calc (1 + u) * (c : ℝ) ≤ (1 + 3 * u) * (1 - u) * c := mul_le_mul_of_nonneg_right h2 (by linarith)
      _ = (1 + 3 * u) * ((1 - u) * c) := by ring
      _ ≤ (1 + 3 * u) * c' := mul_le_mul_of_nonneg_left c0 (by linarith)
  generalize A.div A.one c' = expo at *
  -- the power
  have w0 : 0 < A.powf base expo ∧ A.powf base expo ≤ (1 + u) ^ 151 * X ^ (1 / (c : ℝ)) := by
    have h1 := hA.powf base expo b0.1
    refine ⟨pos h1 (Real.rpow_pos_of_pos b0.1 _), (h1.upper (Real.rpow_nonneg b0.1.le _)).trans ?_⟩
    have h5 := power_le hu0 hu hcr hX1 hX2 b0.1 b0.2 x0.1 x0.2
    calc (1 + u) * base ^ expo ≤ (1 + u) * ((1 + u) ^ 6 * (X ^ (1 / (c : ℝ)) * (1 + u) ^ 144)) :=
          mul_le_mul_of_nonneg_left h5 hg
      _ = (1 + u) ^ 1 * (1 + u) ^ 6 * (1 + u) ^ 144 * X ^ (1 / (c : ℝ)) := by
        rw [pow_one, mul_comm (X ^ (1 / (c : ℝ))), mul_assoc, mul_assoc]
      _ = _ := by rw [← pow_add, ← pow_add]
  have m0 := up f0.1 w0.1 f0.2 w0.2
  generalize A.mul front (A.powf base expo) = prod at *
  rw [← hest] at m0
  have hP : 0 ≤ exactEst c r + c := by rw [hest]; positivity
  have h157 := pow157 hu0 hu
  have m1 : prod ≤ (1 + 400 * u) * (exactEst c r + c) := m0.2.trans (mul_le_mul_of_nonneg_right h157 hP)
  clear m0 w0 h157
  -- the difference
  have d0 := (abs_le.mp (hA.sub prod c')).2
  rcases le_total 0 (prod - c') with h | h
  · rw [abs_of_nonneg h] at d0
    refine le_trans ?_ (le_max_right _ _)
    have : (1 + u) * (prod - c') ≤ (1 + u) * ((1 + 400 * u) * (exactEst c r + c) - (1 - u) * c) :=
      mul_le_mul_of_nonneg_left (by linarith) hg
    linarith
  · rw [abs_of_nonpos h] at d0
    refine le_trans ?_ (le_max_left _ _)
    nlinarith

/-- The estimate is sound in every arithmetic with relative errors up to `2⁻⁴⁵`. -/
theorem soundEst_rounded {A : Flt ℝ} {u pi : ℝ} (hA : Rounded A u) (hu0 : 0 ≤ u) (hu : u ≤ (2 : ℝ)⁻¹ ^ 45)
    (hpi : Approximates u pi Real.pi) (hint : ∀ n : ℕ, n < 2 ^ 63 → Approximates u (A.ofInt n) n) :
    SoundEst (@estimate ℝ A pi Int.ceil) := by
  intro c r hc hc' hr hr' t ht hle
  obtain ⟨t0, h0⟩ := exists_leastT (c := c) (by omega) r
  have hle0 := h0.2.2 t ht hle
  refine le_trans ?_ (Int.ofNat_le.mpr hle0)
  show ⌈_⌉ ≤ (t0 : ℤ)
  rw [Int.ceil_le]
  have hu' : u ≤ 1 / 1000 := hu.trans (by norm_num)
  refine (estimate_le hA hu0 hu' hpi hint hc hc' hr hr').trans (max_le (by positivity) ?_)
  have h1 := exactEst_le (by omega) h0.2.1
  have h2 : (t0 : ℝ) ≤ 2 ^ 33 := by exact_mod_cast (h0.small hc hr hr').le
  have hc2 : (2 : ℝ) ≤ c := by exact_mod_cast hc
  have ht0 : (0 : ℝ) ≤ t0 := by positivity
  have hu3 : u * 2 ^ 45 ≤ 1 := by
    have := mul_le_mul_of_nonneg_right hu (show (0 : ℝ) ≤ 2 ^ 45 by positivity)
    rw [inv_pow, inv_mul_cancel₀ (by positivity)] at this
    exact this
  push_cast
  have k1 : (1 + 400 * u) * (exactEst c r + c) - (1 - u) * c ≤
      (t0 - ((c : ℝ) - 1) / 2) + 401 * u * (t0 + c) := by
    have : (1 + 400 * u) * (exactEst c r + c) ≤ (1 + 400 * u) * (t0 - ((c : ℝ) - 1) / 2 + c) :=
      mul_le_mul_of_nonneg_left (by linarith) (by positivity)
    nlinarith [mul_nonneg hu0 ht0, mul_nonneg hu0 (by linarith : (0 : ℝ) ≤ c)]
  have k2 : (1 + u) * ((1 + 400 * u) * (exactEst c r + c) - (1 - u) * c) ≤
      (1 + u) * ((t0 - ((c : ℝ) - 1) / 2) + 401 * u * (t0 + c)) := mul_le_mul_of_nonneg_left k1 (by linarith)
  refine k2.trans ?_
  have ut : u * t0 ≤ (2 : ℝ)⁻¹ ^ 12 := by
    have : u * t0 ≤ u * 2 ^ 33 := mul_le_mul_of_nonneg_left h2 hu0
    norm_num at this hu3 ⊢
    linarith
  have uc : u * c ≤ c * (2 : ℝ)⁻¹ ^ 45 := by nlinarith
  have uut : 0 ≤ u * t0 := mul_nonneg hu0 ht0
  have uuc : 0 ≤ u * c := mul_nonneg hu0 (by linarith)
  have k3 : (1 + u) * ((t0 - ((c : ℝ) - 1) / 2) + 401 * u * (t0 + c)) ≤
      t0 - ((c : ℝ) - 1) / 2 + u * t0 + 401 * (1 + u) * (u * t0 + u * c) := by nlinarith
  refine k3.trans ?_
  have k4 : 401 * (1 + u) * (u * t0 + u * c) ≤ 402 * (u * t0 + u * c) :=
    mul_le_mul_of_nonneg_right (by linarith) (by linarith)
  norm_num at ut uc
  linarith

end Adv.Ckpt
