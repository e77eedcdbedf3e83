import Verif.Spec.Precision
import Verif.Spec.Tape

/-! # Recorded tapes -/

namespace Adv

variable {S : Type} [Flt S]

/-- A tape obtained
* from `Function::tape` (in any process state whose id counter is not exhausted),
* from `AContext::tape` after any history of API calls,
* from `AContext::tape` after any history of API calls with variables of several precisions, arbitrary conversions between
  them and arbitrary changes of their values (`cast`, `value_mut`), and one `zero_order`,
* by applying `zero_order` to such a tape. -/
inductive Recorded : Tape S → Prop
  | func {t} (f : Func S) (x : List S) (w w' : World S) (hw : w.nextId < usizeMax)
      (e : f.tape x w = (.ok t, w')) : Recorded t
  | context {t} (s : HState S) (hr : s.Reachable) (c : Nat) (w' : World S) (hc : c ∈ s.handles)
      (e : AContext.tape ⟨c⟩ s.world = (.ok t, w')) : Recorded t
  | mixed {t t'} {P : Type} {T : P → Type} [∀ p, Flt (T p)] (up : ∀ p, T p → S) (conv : ∀ p q, T p → T q)
      (s : MState T S) (hr : s.Reachable up conv) (c : Nat) (w' : World S) (hc : c ∈ s.handles)
      (e : AContext.tape ⟨c⟩ s.world = (.ok t, w')) (x : List S) (ez : t.zeroOrder x = .ok t') : Recorded t'
  | replay {t t'} (h : Recorded t) (x : List S) (e : t.zeroOrder x = .ok t') : Recorded t'

theorem Recorded.of_func {f : Func S} {x : List S} {w : World S} {t : Tape S} (hw : w.nextId < usizeMax)
    (e : (f.tape x w).1 = .ok t) : Recorded t :=
  .func f x w (f.tape x w).2 hw (Prod.ext e rfl)

/-- The same number without context. -/
def AFloat.strip (a : AFloat S) : AFloat S := AFloat.new a.v a.dv

end Adv
