import Verif.Spec.AbsNormal

/-! # Specification vocabulary for generalized Jacobians -/

namespace Adv
open Finset

variable {K : Type} [Field K] [LinearOrder K]

/-- Bit number `q` of a byte string, least significant bit of each byte first; `false` past the end. -/
def bitAt (bytes : List UInt8) (q : Nat) : Bool := (bytes.getD (q / 8) 0).toNat.testBit (q % 8)

/-- Number of indices `< i` at which a vector vanishes. -/
def zerosBefore (v : List K) (i : Nat) : Nat := #{k ∈ range i | v.getD k 0 = 0}

/-- The signature selected by switching values and sign bits: the sign where the value is not zero,
otherwise the next unused bit (set: `1`, not set or exhausted: `-1`). -/
def signature (bytes : List UInt8) (zhat : List K) (i : Nat) : K :=
  if zhat.getD i 0 < 0 then -1
  else if 0 < zhat.getD i 0 then 1
  else if bitAt bytes (zerosBefore zhat i) then 1 else -1

/-- `(G, γ)` is the affine piece with signature `sg` of the piecewise linear function described by an
abs-normal form: `G = J + U Z` and `γ = b + U a` where `U = (U L + Y) Σ`, that is `U = YΣ(I - LΣ)⁻¹`. -/
def IsPiece (F : AbsNormalForm K) (sg : Nat → K) (G : DMat K) (γ : List K) : Prop :=
  ∃ U : Nat → Nat → K,
    (∀ i < F.b.length, ∀ j < F.a.length,
      U i j = (∑ k ∈ range F.a.length, U i k * F.lmat.get k j + F.ymat.get i j) * sg j) ∧
    G.nrows = F.b.length ∧ G.ncols = F.jmat.ncols ∧
    (∀ i < F.b.length, ∀ j < F.jmat.ncols,
      G.get i j = F.jmat.get i j + ∑ k ∈ range F.a.length, U i k * F.zmat.get k j) ∧
    γ.length = F.b.length ∧
    ∀ i < F.b.length, γ.getD i 0 = F.b.getD i 0 + ∑ k ∈ range F.a.length, U i k * F.a.getD k 0

/-- The affine function `dx ↦ G dx + γ`. -/
def affine (G : DMat K) (γ dx : List K) : List K :=
  (List.range G.nrows).map fun i => mv G dx i + γ.getD i 0

end Adv
