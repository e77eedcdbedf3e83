import Verif.Spec.AbsNormal
import Verif.Spec.GenJac
import Verif.Model.GeneralizedJacobian

/-! # Specification for generalized Jacobians of chains -/

namespace Adv

/-- Every tape recorded while the chain with links `fs` is evaluated at `x` satisfies `P`. -/
def LinkTapes {S : Type} [Flt S] (w : World S) (P : Tape S → Prop) : List (Func S) → List S → Prop
  | [], _ => True
  | f :: fs, x => (∀ t, (f.tape x w).1 = .ok t → P t) ∧ ∀ y, (f.evalFloat x w).1 = .ok y → LinkTapes w P fs y

/-- The chain with links `fs` can be evaluated at `x`, and the declared number of inputs of every link is the
length of the vector that it gets. -/
def LinksFit {S : Type} [Flt S] (w : World S) : List (Func S) → List S → Prop
  | [], _ => True
  | f :: fs, x => f.n = .ok x.length ∧ ∃ y, (f.evalFloat x w).1 = .ok y ∧ LinksFit w fs y

variable {K : Type} [Field K] [LinearOrder K] [IsStrictOrderedRing K] [Flt K] [LawfulFlt K]

/-- `R'` is `next ∘ R` as affine maps, and the multiplicities add up. -/
structure IsComp (R' next R : GenJac K) : Prop where
  hom : IsMul R'.homogenous next.homogenous R.homogenous
  inh : R'.inhomogenous = (List.range next.homogenous.nrows).map fun i =>
    next.inhomogenous.getD i 0 + mv next.homogenous R.inhomogenous i
  mult : R'.multiplicity = R.multiplicity + next.multiplicity

/-- `R` is the right-to-left composition of the generalized Jacobians of the links `fs`, where each link is
differentiated at the point and in the direction that result from evaluating the links before it. -/
inductive ChainPiece (w : World K) : List (Func K) → List K → List K → GenJac K → Prop
  | nil (x dx : List K) (R : GenJac K) (hr : R.homogenous.nrows = x.length) (hc : R.homogenous.ncols = x.length)
      (hg : ∀ i < x.length, ∀ j < x.length, R.homogenous.get i j = if i = j then 1 else 0)
      (hi : R.inhomogenous = List.replicate x.length 0) (hm : R.multiplicity = 0) : ChainPiece w [] x dx R
  | cons {f : Func K} {fs : List (Func K)} {x dx : List K} {ys : List (AFloat K)} {next R R' : GenJac K}
      (he : (f.eval ((x.zip dx).map fun p => AFloat.new p.1 p.2) w).1 = .ok ys)
      (hn : ChainPiece w fs (ys.map AFloat.v) (ys.map AFloat.dv) next)
      (hR : (generalizedJacobian Sched.seq f x dx [0] none w).1 = .ok R) (hc : IsComp R' next R) :
      ChainPiece w (f :: fs) x dx R'

end Adv
