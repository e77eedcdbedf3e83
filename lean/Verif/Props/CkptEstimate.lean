import Verif.Proof.CkptRound
import Verif.Props.Checkpointing

/-!
# C76: rounding errors in the starting estimate of `find_t`

The theorems on checkpointing assume `SoundEst est` of the estimate of line 34 of checkpointing.rs. Here the estimate is
computed, operation by operation, in a floating point arithmetic: `estimate pi ceil` is the expression of the code,
`pi` the constant `PI`. The only assumption on the arithmetic is a bound for the relative error of each operation.
-/

namespace Adv.Props
open Adv Adv.Ckpt

variable {W T R : Type}

/-- C76: in exact arithmetic `estimate` is Stirling's estimate, rounded up. -/
theorem C76_formula (c r : Nat) : estimate Real.pi Int.ceil c r = ⌈exactEst c r⌉ := by
  simp only [estimate, exactEst, Flt.exp, Flt.neg, Flt.one, Flt.mul, Flt.sub, Flt.div, Flt.powf, Flt.sqrt, Flt.ofInt]
  norm_num

/-- C76: the estimate is sound in every arithmetic with relative errors up to `2⁻⁴⁵`. -/
theorem C76_sound {A : Flt ℝ} {u pi : ℝ} (hA : Rounded A u) (hu0 : 0 ≤ u) (hu : u ≤ (2 : ℝ)⁻¹ ^ 45)
    (hpi : Approximates u pi Real.pi) (hint : ∀ n : ℕ, n < 2 ^ 63 → Approximates u (A.ofInt n) n) :
    SoundEst (@estimate ℝ A pi Int.ceil) :=
  soundEst_rounded hA hu0 hu hpi hint

/-- C76: so the assertions of `find_t` do not fail, and it returns the least number of repetitions. -/
theorem C76_find_t {A : Flt ℝ} {u pi : ℝ} (hA : Rounded A u) (hu0 : 0 ≤ u) (hu : u ≤ (2 : ℝ)⁻¹ ^ 45)
    (hpi : Approximates u pi Real.pi) (hint : ∀ n : ℕ, n < 2 ^ 63 → Approximates u (A.ofInt n) n)
    {c r : Nat} (hc : 2 ≤ c) (hr : 1 ≤ r) (hfit : r * (c + 1) < 2 ^ 63) :
    ∃ t, findT (@estimate ℝ A pi Int.ceil) c r = .ok t ∧ IsLeastT c r t :=
  C30_find_t (C76_sound hA hu0 hu hpi hint) hc hr hfit

/-- Binary arithmetic with at least 45 digits, in particular with the 53 digits of `f64`, satisfies the assumptions. -/
theorem binary_estimate_sound {p : ℕ} (hp : 45 ≤ p) :
    SoundEst (@estimate ℝ (binaryFlt p) (fl p Real.pi) Int.ceil) :=
  C76_sound (binaryFlt_rounded (by omega)) (by positivity)
    (pow_le_pow_of_le_one (by norm_num) (by norm_num) hp) (fl_error p _)
    (fun n _ => by
      show Approximates _ (fl p ((n : ℤ) : ℝ)) _
      rw [Int.cast_natCast]
      exact fl_error p _)

/-- C76 for `f64`: `find_t` with the estimate computed in binary arithmetic with 53 digits. -/
theorem C76_binary64_find_t {c r : Nat} (hc : 2 ≤ c) (hr : 1 ≤ r) (hfit : r * (c + 1) < 2 ^ 63) :
    ∃ t, findT (@estimate ℝ (binaryFlt 53) (fl 53 Real.pi) Int.ceil) c r = .ok t ∧ IsLeastT c r t :=
  C30_find_t (binary_estimate_sound (by norm_num)) hc hr hfit

/-- C76 for `f64`: `reverse_sequence` with the estimate computed in binary arithmetic with 53 digits is the fold. -/
theorem C76_binary64_reverse_fold {n N capMax : Nat} (hn : n + 1 < 2 ^ 64)
    (hsz : SizeOk n N) (hN : 2 ≤ N) (hcap : N ≤ capMax) (fwd : T → Res T) (rev : T → R → Res R) (idn : T → Res R)
    (x : T) (s : Ckpt.World W) :
    (reverseSequence (@estimate ℝ (binaryFlt 53) (fl 53 Real.pi) Int.ceil) capMax x n N (fun x => M.lift (fwd x))
      (fun x r => M.lift (rev x r)) (fun x => M.lift (idn x)) s).1 = revFold fwd rev idn n x :=
  C26_reverse_fold (binary_estimate_sound (by norm_num)) hn hsz hN hcap fwd rev idn x s

/-- The assumptions are satisfiable, also by exact arithmetic, and the bound is not empty: 100 steps with 3
checkpoints need 7 repetitions. -/
example : Rounded (binaryFlt 53) ((2 : ℝ)⁻¹ ^ 53) ∧ (2 : ℝ)⁻¹ ^ 53 ≤ (2 : ℝ)⁻¹ ^ 45 ∧
    Approximates ((2 : ℝ)⁻¹ ^ 53) (fl 53 Real.pi) Real.pi :=
  ⟨binaryFlt_rounded (by norm_num), pow_le_pow_of_le_one (by norm_num) (by norm_num) (by norm_num), fl_error 53 _⟩

private theorem least_3_100 : IsLeastT 3 100 7 := by
  refine ⟨by norm_num, by decide +kernel, fun t ht h => ?_⟩
  by_contra hlt
  have : t = 1 ∨ t = 2 ∨ t = 3 ∨ t = 4 ∨ t = 5 ∨ t = 6 := by omega
  rcases this with rfl | rfl | rfl | rfl | rfl | rfl <;> revert h <;> decide +kernel

example : IsLeastT 3 100 7 ∧ @estimate ℝ (binaryFlt 53) (fl 53 Real.pi) Int.ceil 3 100 ≤ 7 := by
  refine ⟨least_3_100, ?_⟩
  have := binary_estimate_sound (p := 53) (by norm_num) 3 100 (by norm_num) (by norm_num) (by norm_num) (by norm_num) 7
    (by norm_num) (by decide +kernel)
  exact_mod_cast this

/-- Some bound on the errors is needed: a large error of the estimate makes the assertion of `find_t` fail. -/
example : IsLeastT 3 100 7 ∧ findT (fun _ _ => 8) 3 100 = .error .assertFailed := ⟨least_3_100, by decide +kernel⟩

end Adv.Props
