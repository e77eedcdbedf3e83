import Verif.Spec.Machine
import Verif.Model.GeneralizedJacobian

/-!
# Specification vocabulary for matrices, abs-normal forms and generalized Jacobians of machine numbers
-/

namespace Adv

variable {S : Type} (val : S → Option ℝ)

/-- A matrix of machine numbers of the same size whose entries are finite and differ by at most `δ`. -/
structure DMat.CloseM (δ : ℝ) (M : DMat ℝ) (M' : DMat S) : Prop where
  nrows : M'.nrows = M.nrows
  ncols : M'.ncols = M.ncols
  get : ∀ i < M.nrows, ∀ j < M.ncols, WithinM val δ (M.get i j) (M'.get i j)

/-- An abs-normal form of the same shape whose entries are finite and differ by at most `δ`. -/
structure AbsNormalForm.CloseM (δ : ℝ) (F : AbsNormalForm ℝ) (F' : AbsNormalForm S) : Prop where
  a : List.Forall₂ (WithinM val δ) F.a F'.a
  zmat : F.zmat.CloseM val δ F'.zmat
  lmat : F.lmat.CloseM val δ F'.lmat
  b : List.Forall₂ (WithinM val δ) F.b F'.b
  jmat : F.jmat.CloseM val δ F'.jmat
  ymat : F.ymat.CloseM val δ F'.ymat

/-- A generalized Jacobian of the same shape and multiplicity whose entries are finite and differ by at most `δ`. -/
structure GenJac.CloseM (δ : ℝ) (G : GenJac ℝ) (G' : GenJac S) : Prop where
  homogenous : G.homogenous.CloseM val δ G'.homogenous
  inhomogenous : List.Forall₂ (WithinM val δ) G.inhomogenous G'.inhomogenous
  multiplicity : G'.multiplicity = G.multiplicity

end Adv
