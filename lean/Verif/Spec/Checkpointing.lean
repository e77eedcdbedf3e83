import Verif.Model.Base
import Mathlib.Data.Nat.Choose.Basic
import Mathlib.Algebra.Order.Floor.Defs
import Mathlib.Analysis.SpecialFunctions.Pow.Real

/-! # Specification for checkpointing: the plain reverse fold, and the number of repetitions -/

namespace Adv.Ckpt
open Adv

variable {T R : Type}

/-- The plain reverse fold `reverse(x_0, reverse(x_1, ... identity(x_n)))`. -/
def revFold (fwd : T → Res T) (rev : T → R → Res R) (idn : T → Res R) : Nat → T → Res R
  | 0, x => idn x
  | n + 1, x => do
      let x' ← fwd x
      let r ← revFold fwd rev idn n x'
      rev x r

/-- The states `x_i` of the sequence. -/
def state (fwd : T → Res T) : Nat → T → Res T
  | 0, x => .ok x
  | i + 1, x => do fwd (← state fwd i x)

/-- The least `t ≥ 1` with `r ≤ binomial(c+t, c)`. -/
def IsLeastT (c r t : Nat) : Prop :=
  1 ≤ t ∧ r ≤ Nat.choose (c + t) c ∧ ∀ t', 1 ≤ t' → r ≤ Nat.choose (c + t') c → t ≤ t'

/-- The estimate never exceeds the number of repetitions, for arguments that fit into `isize`. -/
def SoundEst (est : Int → Int → Int) : Prop :=
  ∀ c r : Nat, 2 ≤ c → c < 2 ^ 63 → 1 ≤ r → r < 2 ^ 63 → ∀ t : Nat, 1 ≤ t → r ≤ Nat.choose (c + t) c → est c r ≤ t

/-- The real number that line 34 of checkpointing.rs approximates, before rounding up. -/
noncomputable def exactEst (c r : ℝ) : ℝ :=
  Real.exp (-1) * c * (Real.sqrt (2 * Real.pi * c) * r) ^ (1 / c) - c

end Adv.Ckpt
