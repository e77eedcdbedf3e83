import Verif.Model.AbsNormal

/-! # Model of `src/drivers/generalized_jacobian.rs` (a single function or tape) -/

namespace Adv
open scoped Adv

variable {S : Type} [Flt S]

/-- generalized_jacobian.rs:5-9 `struct GeneralizedJacobian`. -/
structure GenJac (S : Type) where
  homogenous : DMat S
  inhomogenous : List S
  multiplicity : Nat

/-- generalized_jacobian.rs:11-24 `bit_iter`: one call of `next` in state `idx`. -/
def bitNext (bytes : List UInt8) (idx : Nat) : Bool × Nat :=
  match bytes[idx / 8]? with
  | some byte => (decide (byte.toNat &&& (1 <<< (idx % 8)) > 0), idx + 1)
  | none => (false, idx)

/-- generalized_jacobian.rs:69-75: at most `s` fixed point iterations, stopping when nothing changes.
`k` counts the iterations that are left. -/
def dzLoop (σ : Sched) (lTape : Tape S) (dzt : List S) : Nat → List S → Res (List S)
  | 0, dz => .ok dz
  | k + 1, dz => do
      let dz' ← vadd dzt (← (← Anf.mulRight (σ.at_ k) lTape (DMat.ofVec (vabs dz))).toVec)
      if vbeq dz' dz then return dz' else dzLoop σ lTape dzt k dz'

/-- generalized_jacobian.rs:78-90: one iteration; the state is `(sigma, multiplicity, idx)`, `sigma` being
built from the left. Simplification: the zero-initialised vector is filled completely, so it is modelled
by appending. -/
def sigmaStep (bytes : List UInt8) (st : List S × Nat × Nat) (dzi : S) : List S × Nat × Nat :=
  let (sigma, mult, idx) := st
  if Flt.lt dzi Flt.zero then (sigma ++ [Flt.neg Flt.one], mult, idx)
  else if Flt.lt Flt.zero dzi then (sigma ++ [Flt.one], mult, idx)
  else
    let (b, idx) := bitNext bytes idx
    (sigma ++ [if b then Flt.one else Flt.neg Flt.one], mult + 1, idx)

/-- generalized_jacobian.rs:78-90: `σ` and the multiplicity. -/
def sigmaLoop (bytes : List UInt8) (s : Nat) (dz : List S) : Res (List S × Nat) := do
  let dzs ← (List.range s).mapM (getR dz)
  let st := dzs.foldl (sigmaStep bytes) ([], 0, 0)
  return (st.1, st.2.1)

/-- generalized_jacobian.rs:106-110, 121-125: `for i in 0..r { for j in 0..s { m[(i, j)] *= sigma[j] } }`.
Simplification: the index checks are done up front (if `r = 0` or `s = 0` nothing is accessed). -/
def scaleCols (m : DMat S) (r s : Nat) (sigma : List S) : Res (DMat S) :=
  if r = 0 ∨ s = 0 ∨ (r ≤ m.nrows ∧ s ≤ m.ncols ∧ s ≤ sigma.length) then
    .ok { m with get := fun i j => if i < r ∧ j < s then m.get i j *ᶠ sigma.getD j Flt.zero else m.get i j }
  else .error .indexOutOfBounds

/-- generalized_jacobian.rs:117-134: the iteration `u1 := u1 L Σ + YΣ`. -/
def uLoop (σ : Sched) (lTape : Tape S) (ys : DMat S) (r s : Nat) (sigma : List S) :
    Nat → DMat S → Res (DMat S)
  | 0, u1 => .ok u1
  | k + 1, u2 => do
      let u1 ← Anf.mulLeft (σ.at_ k) lTape u2
      let u1 ← scaleCols u1 r s sigma
      let u1 ← u1.add ys
      if u1.beq u2 then return u1 else uLoop σ lTape ys r s sigma k u1

/-- generalized_jacobian.rs:41-146 `generalized_jacobian_tape`. -/
def generalizedJacobianTape (σ : Sched) (tape : Tape S) (dx : List S) (signBits : List UInt8)
    (next : Option (GenJac S)) : Res (GenJac S) := do
  let n := tape.numIndeps
  let m := tape.numDeps
  let s := tape.numAbs
  assertR (dx.length = n)
  let absTape ← AbsNormalTape.new tape
  let zTape := anfZ absTape
  let lTape := anfL absTape
  let jTape := anfJ absTape
  let yTape := anfY absTape
  -- a and b
  let z ← absTape.z
  let zAbs := vabs z
  let a ← vsub z (← (← Anf.mulRight (σ.at_ 0) lTape (DMat.ofVec zAbs)).toVec)
  let b := vneg (← (← Anf.mulRight (σ.at_ 1) yTape (DMat.ofVec zAbs)).toVec)
  -- Δz
  let dzt ← vadd a (← (← Anf.mulRight (σ.at_ 2) zTape (DMat.ofVec dx)).toVec)
  let dz ← dzLoop (σ.at_ 3) lTape dzt s dzt
  -- σ and the multiplicity
  let (sigma, mult) ← sigmaLoop signBits s dz
  let (g2, gamma2, mult) := match next with
    | some next => (next.homogenous, next.inhomogenous, mult + next.multiplicity)
    | none => (DMat.identity m, List.replicate m Flt.zero, mult)
  -- YΣA
  let ys ← scaleCols (← Anf.mulLeft (σ.at_ 4) yTape g2) g2.nrows s sigma
  let u ← uLoop (σ.at_ 5) lTape ys g2.nrows s sigma s ys
  let homogenous ← (← Anf.mulLeft (σ.at_ 6) jTape g2).add (← Anf.mulLeft (σ.at_ 7) zTape u)
  let inhomogenous ← vadd (← vadd gamma2 (← g2.mulVec b)) (← u.mulVec a)
  return { homogenous, inhomogenous, multiplicity := mult }

/-- generalized_jacobian.rs:27-37 `generalized_jacobian`. -/
def generalizedJacobian (σ : Sched) (f : Func S) (x dx : List S) (signBits : List UInt8)
    (next : Option (GenJac S)) : M (World S) (GenJac S) := do
  M.lift (assertR (x.length = (← M.lift f.n)))
  let tape ← f.tape x
  M.lift (generalizedJacobianTape σ tape dx signBits next)

end Adv
