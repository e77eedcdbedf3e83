import Verif.Model.Base
import Mathlib.Data.Nat.Choose.Basic

/-!
# Model of `src/drivers/checkpointing.rs`

`usize` and `isize` have 64 bits. Arithmetic is checked as in a debug build; `as` casts wrap.
-/

namespace Adv.Ckpt
open Adv
open scoped Adv

/-- `x as isize` for `x : usize`. -/
def toISize (x : Nat) : Int := if x < 2 ^ 63 then x else (x : Int) - 2 ^ 64

/-- `x as usize` for `x : isize`. -/
def toUSize (x : Int) : Nat := (x % 2 ^ 64).toNat

/-- Saturating cast of a float (already rounded to an integer) to `isize`. -/
def satISize (x : Int) : Int := max (-2 ^ 63) (min x (2 ^ 63 - 1))

/-- `usize` addition (debug build: panics on overflow). -/
def addU (a b : Nat) : Res Nat := if a + b < 2 ^ 64 then .ok (a + b) else .error .overflow

/-- `isize` subtraction of a small number. -/
def subI (a b : Int) : Res Int := if -2 ^ 63 ≤ a - b then .ok (a - b) else .error .overflow

/-- checkpointing.rs:10-18 `beta`. `num::integer::binomial` on `BigUint` is taken to be the binomial
coefficient. -/
def beta (c t : Int) : Res Nat :=
  if c ≤ 0 ∨ t ≤ 0 then .ok 0
  else
    let b := Nat.choose (c.toNat + t.toNat) c.toNat
    if b < 2 ^ 64 then .ok b else .error .overflow

/-- checkpointing.rs:36-38: the loop of `find_t`. The first argument is the number of times `t` can be
incremented before `t += 1` overflows. -/
def findTLoop (c r : Int) : Nat → Int → Res Int
  | 0, t => do
      let b ← beta c t
      if r > toISize b then .error .overflow else .ok t
  | k + 1, t => do
      let b ← beta c t
      if r > toISize b then findTLoop c r k (t + 1) else .ok t

/-- checkpointing.rs:31-35: the first value of `t` in `find_t`, before the cast to `isize`. `pi` is the constant `PI`, `ceil`
the method of that name (its result is an integer). -/
def estimate {S : Type} [Flt S] (pi : S) (ceil : S → Int) (c r : Int) : Int :=
  let c : S := Flt.ofInt c
  let r : S := Flt.ofInt r
  ceil (Flt.exp (Flt.neg Flt.one) *ᶠ c *ᶠ Flt.powf (Flt.sqrt (Flt.ofInt 2 *ᶠ pi *ᶠ c) *ᶠ r) (Flt.one /ᶠ c) -ᶠ c)

/-- checkpointing.rs:20-43 `find_t`. `est c r` is the value of the floating point expression of line 34 before
the cast to `isize`; it is a parameter of the model (see `estimate`). -/
def findT (est : Int → Int → Int) (c r : Nat) : Res Nat :=
  let c := toISize c
  let r := toISize r
  if c = 1 then .ok (if r > 0 then toUSize (r - 1) else 0)
  else do
    let t := satISize (est c r)
    let t ← findTLoop c r (2 ^ 63 - 1 - t).toNat t
    assertR (toISize (← beta c (← subI t 1)) < r)
    assertR (r ≤ toISize (← beta c t))
    return toUSize t

/-- checkpointing.rs:45-58 `next_checkpoint`. -/
def nextCheckpoint (est : Int → Int → Int) (c r : Nat) : Res Nat := do
  let t := toISize (← findT est c r)
  let c := toISize c
  if c ≤ 0 ∨ r = 0 then return 0
  else if r ≤ (← addU (← beta c (← subI t 1)) (← beta (← subI c 2) (← subI t 1))) then
    beta c (← subI t 2)
  else if r ≥ (← subU (← beta c t) (← beta (← subI c 3) t)) then
    beta c (← subI t 1)
  else
    subU (← subU r (← beta (← subI c 1) (← subI t 1))) (← beta (← subI c 2) (← subI t 1))

/-- checkpointing.rs:66-74: the distance to the next checkpoint. -/
def partialCp (est : Int → Int → Int) (c r : Nat) : Res Nat :=
  if r - 1 ≤ c then .ok 1
  else if c = 1 then .ok (r - 1)
  else if r > 2 then do
    let n ← nextCheckpoint est c r
    return min (max n 1) (r - 1)
  else .ok 1

/-- checkpointing.rs:64-83: one call of the closure of `schedule` in the state `offset`, `c_`, `r_`. Returns the
checkpoint and the new `r_`; the new `offset` is the checkpoint and the new `c_` is `c_ - 1`. -/
def schedNext (est : Int → Int → Int) (r offset c_ r_ : Nat) : Res (Option (Nat × Nat)) :=
  if r_ > 1 ∧ c_ > 0 then do
    let cp ← addU offset (← partialCp est c_ r_)
    return some (cp, ← subU r cp)
  else .ok none

/-- The remaining elements of the iterator `schedule`, starting from the state `offset`, `c_`, `r_`.
Simplification: the iterator is not called again after it returned `None`. -/
def schedFrom (est : Int → Int → Int) (r : Nat) : (c_ offset r_ : Nat) → Res (List Nat)
  | 0, offset, r_ => do
      match ← schedNext est r offset 0 r_ with
      | none => return []
      | some _ => .error .diverges  -- not reachable: `schedNext` returns `None` if `c_ = 0`
  | c + 1, offset, r_ => do
      match ← schedNext est r offset (c + 1) r_ with
      | none => return []
      | some (cp, r_) => return cp :: (← schedFrom est r c cp r_)

/-- checkpointing.rs:60-84 `schedule(c, r).collect()`. -/
def schedule (est : Int → Int → Int) (c r : Nat) : Res (List Nat) := schedFrom est r c 0 r

/-- The world in which `reverse_sequence` runs: the world `w` of the closures and a ghost variable, the largest
number of elements that `checkpoints` had so far. -/
structure World (W : Type) where
  w : W
  peak : Nat

variable {W T R : Type}

/-- A call of a closure. -/
def call {α : Type} (m : M W α) : M (World W) α := fun s =>
  let (r, w') := m s.w
  (r, { s with w := w' })

/-- `checkpoints.push_back(x)`; `checkpoints` is only used at its back, so it is a list with the newest element
first. Records the length in the ghost variable. -/
def pushBack (cps : List (Nat × T)) (x : Nat × T) : M (World W) (List (Nat × T)) := fun s =>
  (.ok (x :: cps), { s with peak := max s.peak (cps.length + 1) })

/-- checkpointing.rs:128-130: `k` calls of `forward`. -/
def forwardN (forward : T → M W T) : Nat → T → M (World W) T
  | 0, x => pure x
  | k + 1, x => do forwardN forward k (← call (forward x))

/-- checkpointing.rs:127-133: the loop over the schedule, `base` being `last_cp_idx`. -/
def advance (est : Int → Int → Int) (forward : T → M W T) (base r : Nat) :
    (c_ offset r_ : Nat) → (currentI : Nat) → (currentX : T) → List (Nat × T) → M (World W) (List (Nat × T))
  | 0, offset, r_, _, _, cps => do
      match ← M.lift (schedNext est r offset 0 r_) with
      | none => return cps
      | some _ => M.throw .diverges  -- not reachable
  | c + 1, offset, r_, currentI, currentX, cps => do
      match ← M.lift (schedNext est r offset (c + 1) r_) with
      | none => return cps
      | some (cp, r_) =>
        let x ← forwardN forward (cp - currentI) currentX
        let i ← M.lift (addU base cp)
        let cps ← pushBack cps (i, x)
        advance est forward base r c cp r_ cp x cps

/-- checkpointing.rs:115-135: move to the end of the remaining sequence of length `r`. -/
def toEnd (est : Int → Int → Int) (forward : T → M W T) (ncheckpoints r : Nat) (cps : List (Nat × T)) :
    M (World W) (List (Nat × T)) := do
  let (base, x) ← M.lift (unwrap cps.head?)
  let partialR ← M.lift (subU r base)
  let partialC ← M.lift (subU ncheckpoints cps.length)
  if partialR > 0 then advance est forward base partialR partialC 0 partialR 0 x cps else pure cps

/-- checkpointing.rs:113-149: the main loop with `r` elements left, and the final `unwrap`. -/
def mainLoop (est : Int → Int → Int) (forward : T → M W T) (reverse : T → R → M W R) (identity : T → M W R)
    (ncheckpoints : Nat) : (r : Nat) → List (Nat × T) → Option R → M (World W) R
  | 0, _, result => M.lift (unwrap result)
  | r + 1, cps, result => do
      let cps ← toEnd est forward ncheckpoints (r + 1) cps
      match cps with
      | [] => M.throw .unwrapNone
      | (i, cp) :: cps =>
        M.lift (assertR (i = r))
        let res ← match result with
          | some right => call (reverse cp right)
          | none => call (identity cp)
        mainLoop est forward reverse identity ncheckpoints r cps (some res)

/-- checkpointing.rs:87-150 `reverse_sequence`. `capMax` is the largest capacity for which
`VecDeque::with_capacity` succeeds. -/
def reverseSequence (est : Int → Int → Int) (capMax : Nat) (x : T) (nsteps ncheckpoints : Nat)
    (forward : T → M W T) (reverse : T → R → M W R) (identity : T → M W R) : M (World W) R := do
  M.lift (assertR (ncheckpoints ≥ 2))
  M.lift (if ncheckpoints ≤ capMax then .ok () else .error .overflow)
  let cps ← pushBack [] (0, x)
  let r ← M.lift (addU nsteps 1)
  mainLoop est forward reverse identity ncheckpoints r cps none

end Adv.Ckpt
