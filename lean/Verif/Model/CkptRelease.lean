import Verif.Model.Checkpointing
import Verif.Model.Chain

/-!
# Model of `src/drivers/checkpointing.rs` in a release build

The model of `Verif.Model.Checkpointing` has the checked arithmetic of a debug build. In a release build (`overflow-checks`
off) additions and subtractions wrap; `assert!`, `assert_eq!` and `unwrap` still panic. `beta` has no arithmetic on
machine integers apart from `to_usize().unwrap()`, so it is the same function in both builds.
-/

namespace Adv.Ckpt
open Adv
open scoped Adv

/-- `usize` addition (release build: wraps). -/
def addW (a b : Nat) : Nat := (a + b) % 2 ^ 64

/-- `usize` subtraction (release build: wraps). -/
def subW (a b : Nat) : Nat := toUSize ((a : Int) - b)

/-- `isize` addition and subtraction (release build: the exact result `x` wraps). -/
def wrapI (x : Int) : Int := toISize (toUSize x)

/-- checkpointing.rs:36-38: the loop of `find_t` in a release build. The first argument is the number of iterations until
all values of `t` have been seen: after that many the loop does not end. -/
def findTLoopW (c r : Int) : Nat → Int → Res Int
  | 0, _ => .error .diverges
  | k + 1, t => do
      let b ← beta c t
      if r > toISize b then findTLoopW c r k (wrapI (t + 1)) else .ok t

/-- checkpointing.rs:20-43 `find_t` in a release build. -/
def findTW (est : Int → Int → Int) (c r : Nat) : Res Nat :=
  let c := toISize c
  let r := toISize r
  if c = 1 then .ok (if r > 0 then toUSize (wrapI (r - 1)) else 0)
  else do
    let t := satISize (est c r)
    let t ← findTLoopW c r (2 ^ 64) t
    assertR (toISize (← beta c (wrapI (t - 1))) < r)
    assertR (r ≤ toISize (← beta c t))
    return toUSize t

/-- checkpointing.rs:45-58 `next_checkpoint` in a release build. -/
def nextCheckpointW (est : Int → Int → Int) (c r : Nat) : Res Nat := do
  let t := toISize (← findTW est c r)
  let c := toISize c
  if c ≤ 0 ∨ r = 0 then return 0
  else if r ≤ addW (← beta c (wrapI (t - 1))) (← beta (wrapI (c - 2)) (wrapI (t - 1))) then
    beta c (wrapI (t - 2))
  else if r ≥ subW (← beta c t) (← beta (wrapI (c - 3)) t) then
    beta c (wrapI (t - 1))
  else
    return subW (subW r (← beta (wrapI (c - 1)) (wrapI (t - 1)))) (← beta (wrapI (c - 2)) (wrapI (t - 1)))

/-- checkpointing.rs:66-74: the distance to the next checkpoint in a release build. -/
def partialCpW (est : Int → Int → Int) (c r : Nat) : Res Nat :=
  if subW r 1 ≤ c then .ok 1
  else if c = 1 then .ok (subW r 1)
  else if r > 2 then do
    let n ← nextCheckpointW est c r
    return min (max n 1) (subW r 1)
  else .ok 1

/-- checkpointing.rs:64-83: one call of the closure of `schedule` in a release build. -/
def schedNextW (est : Int → Int → Int) (r offset c_ r_ : Nat) : Res (Option (Nat × Nat)) :=
  if r_ > 1 ∧ c_ > 0 then do
    let cp := addW offset (← partialCpW est c_ r_)
    return some (cp, subW r cp)
  else .ok none

variable {W T R : Type}

/-- checkpointing.rs:127-133: the loop over the schedule in a release build. The range `current_i..cp_idx` is empty if
`cp_idx` is less than `current_i`. -/
def advanceW (est : Int → Int → Int) (forward : T → M W T) (base r : Nat) :
    (c_ offset r_ : Nat) → (currentI : Nat) → (currentX : T) → List (Nat × T) → M (World W) (List (Nat × T))
  | 0, offset, r_, _, _, cps => do
      match ← M.lift (schedNextW est r offset 0 r_) with
      | none => return cps
      | some _ => M.throw .diverges  -- not reachable
  | c + 1, offset, r_, currentI, currentX, cps => do
      match ← M.lift (schedNextW est r offset (c + 1) r_) with
      | none => return cps
      | some (cp, r_) =>
        let x ← forwardN forward (cp - currentI) currentX
        let cps ← pushBack cps (addW base cp, x)
        advanceW est forward base r c cp r_ cp x cps

/-- checkpointing.rs:115-135 in a release build: move to the end of the remaining sequence of length `r`. -/
def toEndW (est : Int → Int → Int) (forward : T → M W T) (ncheckpoints r : Nat) (cps : List (Nat × T)) :
    M (World W) (List (Nat × T)) := do
  let (base, x) ← M.lift (unwrap cps.head?)
  let partialR := subW r base
  let partialC := subW ncheckpoints cps.length
  if partialR > 0 then advanceW est forward base partialR partialC 0 partialR 0 x cps else pure cps

/-- checkpointing.rs:113-149 in a release build: the main loop with `r` elements left, and the final `unwrap`. `r - 1` and
`r -= 1` do not wrap because `r > 0`. -/
def mainLoopW (est : Int → Int → Int) (forward : T → M W T) (reverse : T → R → M W R) (identity : T → M W R)
    (ncheckpoints : Nat) : (r : Nat) → List (Nat × T) → Option R → M (World W) R
  | 0, _, result => M.lift (unwrap result)
  | r + 1, cps, result => do
      let cps ← toEndW est forward ncheckpoints (r + 1) cps
      match cps with
      | [] => M.throw .unwrapNone
      | (i, cp) :: cps =>
        M.lift (assertR (i = r))
        let res ← match result with
          | some right => call (reverse cp right)
          | none => call (identity cp)
        mainLoopW est forward reverse identity ncheckpoints r cps (some res)

/-- checkpointing.rs:87-150 `reverse_sequence` in a release build. -/
def reverseSequenceW (est : Int → Int → Int) (capMax : Nat) (x : T) (nsteps ncheckpoints : Nat)
    (forward : T → M W T) (reverse : T → R → M W R) (identity : T → M W R) : M (World W) R := do
  M.lift (assertR (ncheckpoints ≥ 2))
  M.lift (if ncheckpoints ≤ capMax then .ok () else .error .overflow)
  let cps ← pushBack [] (0, x)
  mainLoopW est forward reverse identity ncheckpoints (addW nsteps 1) cps none

end Adv.Ckpt

namespace Adv
variable {S : Type} [Flt S]

/-- generalized_jacobian.rs:149-186 `generalized_jacobian_chain` in a release build. -/
def generalizedJacobianChainW (σ : Sched) (est : Int → Int → Int) (capMax : Nat) (chain : Func S) (x dx : List S)
    (ncheckpoints : Option Nat) : M (Ckpt.World (World S)) (GenJac S) :=
  Ckpt.reverseSequenceW est capMax (0, x, dx) chain.len (ncheckpoints.getD chain.len)
    (chainForward chain) (chainReverse σ chain) (fun s => pure (chainIdentity s))

end Adv
