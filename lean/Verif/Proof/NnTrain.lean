import Verif.Proof.Perceptron
import Verif.Proof.Jacobian
import Verif.Proof.Replay
import Verif.Props.Fresh

/-! # The training loop of the perceptron example, in any arithmetic -/

set_option linter.unusedSectionVars false

namespace Adv.Nn
open Adv.Props
open scoped Adv

variable {S : Type} [Flt S]

/-- What `record` returns. -/
structure Rec (t : Tape S) : Prop where
  tape : TapeOf func (List.replicate 9 Flt.zero) t
  abs : t.AbsFree
  nodup : t.deps.Nodup
  indeps : t.numIndeps = 9
  deps : t.numDeps = 1

theorem range_getD {x : List S} (hx : x.length = 9) : (List.range 9).map (fun i => x.getD i Flt.zero) = x := by
  apply List.ext_getElem (by simp [hx])
  intro i h1 h2
  simp only [List.getElem_map, List.getElem_range, List.getD_eq_getElem?_getD, List.getElem?_eq_getElem h2, Option.getD_some]

theorem func_evalV {x : List S} (hx : x.length = 9) :
    func.evalV x = .ok [(errS unitSh fun i => (x.getD i Flt.zero, ())).1] := by
  have := Fw.evalV_of_evalS (func_eval (sh := unitSh) fun i => (x.getD i Flt.zero, ()))
  rw [Fw.map_fst_eq, range_getD hx] at this
  exact this

theorem record_ok {w : World S} (hw : w.nextId < usizeMax) : ∃ t, record w = (.ok t, w.afterTape) ∧ Rec t := by
  obtain ⟨t, h1, h2⟩ := Fw.tape_ok (func_evalV (S := S) (x := List.replicate 9 Flt.zero) (by simp)) hw
  have hout := h2.out
  rw [func_evalV (by simp)] at hout
  injection hout with hout
  have hd : t.numDeps = 1 := by
    have := congrArg List.length hout
    simp only [List.length_map, List.length_singleton] at this
    exact this.symm
  refine ⟨t, h1, h2, fun op hop => (Func.tape_ids hw h1 DistinctVars).ops (· ≠ .Abs) (by decide) func_ops op hop, ?_, ?_, hd⟩
  · have hl : t.deps.length = 1 := hd
    match hdd : t.deps, hl with
    | [a], _ => simp
  · rw [Tape.numIndeps, h2.indeps]; simp

/-- The column of the gradient of a replayed tape. -/
def col (t : Tape S) : DMat S := { nrows := 9, ncols := 1, get := fun i j => (DMat.ofFn 1 9 (jrEntry t)).get j i }

/-- A tape that `t` becomes by replaying. -/
def Replays (t t' : Tape S) : Prop := ∀ x : List S, x.length = 9 → t'.zeroOrder x = t.zeroOrder x

theorem Rec.replay {t : Tape S} (h : Rec t) {x : List S} (hx : x.length = 9) :
    ∃ t1, t.zeroOrder x = .ok t1 ∧ Replays t t1 ∧ t1.WF ∧ t1.AbsFree ∧ t1.numIndeps = 9 ∧ t1.numDeps = 1 ∧
      func.evalV x = t1.y := by
  obtain ⟨t1, h1, h2, -, h3⟩ := h.tape.zeroOrder_eval func_straight (x1 := x) (by simpa using hx)
  have hl := h.tape.proper.zeroOrder_like h1
  have hi : t.indeps.length = 9 := h.indeps
  refine ⟨t1, h1, fun x' hx' => h.tape.proper.zeroOrder_zeroOrder (by omega) h1, h2.wf, ?_, ?_, ?_, h3⟩
  · intro op hop
    rw [hl.ops] at hop
    exact h.abs op hop
  · rw [Tape.numIndeps, hl.indeps]; exact h.indeps
  · rw [Tape.numDeps, hl.deps]; exact h.deps

theorem gradient_ok {σ : Sched} (hσ : σ.Valid) {t t' : Tape S} (h : Rec t) (hr : Replays t t') {x : List S}
    (hx : x.length = 9) :
    ∃ t1, t.zeroOrder x = .ok t1 ∧ Replays t t1 ∧ t1.y = func.evalV x ∧ gradient σ t' x = .ok (t1, col t1) ∧
      jacobianReverse σ t1 = .ok (DMat.ofFn 1 9 (jrEntry t1)) := by
  obtain ⟨t1, h1, h2, h3, h4, h5, h6, h7⟩ := h.replay hx
  have hj := jacobianReverse_eq hσ h3 h4
  rw [h5, h6] at hj
  refine ⟨t1, h1, h2, h7.symm, ?_, hj⟩
  rw [gradient, hr x hx, h1, bind_ok_eq, hj, bind_ok_eq]
  rfl

/-- The invariant of the loop. -/
structure Inv (t : Tape S) (p0 : List S) (s : State S) : Prop where
  len : s.params.length = 9
  rep : Replays t s.tape
  grad : ∃ t1, t.zeroOrder s.params = .ok t1 ∧ s.g = col t1
  err : (s.error = none ∧ s.params = p0 ∧ s.iterations = 0) ∨ ∃ e, s.error = some e ∧ func.evalV s.params = .ok [e]

theorem enter_ok {σ : Sched} (hσ : σ.Valid) {t : Tape S} (h : Rec t) {x : List S} (hx : x.length = 9) :
    ∃ s, enter σ t x = .ok s ∧ Inv t x s ∧ s.step = Flt.one ∧ s.params = x ∧ s.iterations = 0 := by
  obtain ⟨t1, h1, h2, h3, h4, -⟩ := gradient_ok hσ h (fun _ _ => rfl) hx
  refine ⟨⟨t1, x, col t1, Flt.one, 0, none⟩, ?_, ⟨hx, h2, ⟨t1, h1, rfl⟩, .inl ⟨rfl, rfl, rfl⟩⟩, rfl, rfl, rfl⟩
  rw [enter, h4, bind_ok_eq]
  rfl

/-- One iteration. -/
structure Next (nextStep : List S → List S → DMat S → DMat S → S) (s s' : State S) : Prop where
  params : s'.params = (List.range 9).map fun i => s.params.getD i Flt.zero -ᶠ s.step *ᶠ s.g.get i 0
  step : s'.step = nextStep s.params s'.params s.g s'.g
  iterations : s'.iterations = s.iterations + 1

theorem body_ok {σ : Sched} (hσ : σ.Valid) {t : Tape S} (h : Rec t)
    (nextStep : List S → List S → DMat S → DMat S → S) {p0 : List S} {s : State S} (hs : Inv t p0 s) :
    ∃ s', body σ nextStep s = .ok s' ∧ Inv t p0 s' ∧ Next nextStep s s' := by
  obtain ⟨t0, g1, g2⟩ := hs.grad
  have hc : colSub s.params s.step s.g = .ok ((List.range 9).map fun i => s.params.getD i Flt.zero -ᶠ s.step *ᶠ s.g.get i 0) := by
    have : assertR (decide (s.g.nrows = s.params.length ∧ s.g.ncols = 1)) = .ok () := by
      rw [g2, hs.len]; rfl
    rw [colSub, this, bind_ok_eq, hs.len]
    rfl
  set new := (List.range 9).map fun i => s.params.getD i Flt.zero -ᶠ s.step *ᶠ s.g.get i 0 with hnew
  have hl : new.length = 9 := by simp [hnew]
  obtain ⟨t1, h1, h2, h3, h4, -⟩ := gradient_ok hσ h hs.rep hl
  have he := func_evalV hl
  set e := (errS unitSh fun i => (new.getD i Flt.zero, ())).1
  refine ⟨⟨t1, new, col t1, nextStep s.params new s.g (col t1), s.iterations + 1, some e⟩, ?_,
    ⟨hl, h2, ⟨t1, h1, rfl⟩, .inr ⟨e, rfl, he⟩⟩, ⟨hnew, rfl, rfl⟩⟩
  rw [body, hc, bind_ok_eq, h4, bind_ok_eq]
  have h5 : t1.zeroOrder new = .ok t1 := by rw [h2 new hl, h1]
  simp only [h5, bind_ok_eq, h3, he]
  rfl

theorem loop_ok {σ : Nat → Sched} (hσ : ∀ n, (σ n).Valid) {t : Tape S} (h : Rec t)
    (nextStep : List S → List S → DMat S → DMat S → S) (stop : DMat S → Bool) {p0 : List S} (P : State S → Prop)
    (hP : ∀ s s', P s → Inv t p0 s → Inv t p0 s' → Next nextStep s s' → stop s.g = false → P s') :
    ∀ (n : Nat) (s : State S), Inv t p0 s → P s → ∃ s', loop σ nextStep stop n s = .ok s' ∧ Inv t p0 s' ∧ P s' ∧
      s'.iterations ≤ s.iterations + n ∧ (s'.iterations < s.iterations + n → stop s'.g = true) := by
  intro n
  induction n with
  | zero => intro s hs hp; exact ⟨s, rfl, hs, hp, by omega, fun h => absurd h (by omega)⟩
  | succ n ih =>
    intro s hs hp
    rw [loop]
    by_cases hst : stop s.g = true
    · rw [if_pos hst]
      exact ⟨s, rfl, hs, hp, by omega, fun _ => hst⟩
    · obtain ⟨s1, h1, h2, h3⟩ := body_ok (hσ n) h nextStep hs
      obtain ⟨s2, k1, k2, k3, k4, k5⟩ := ih s1 h2 (hP s s1 hp hs h2 h3 (by simpa using hst))
      rw [if_neg hst, h1, bind_ok_eq]
      have := h3.iterations
      exact ⟨s2, k1, k2, k3, by omega, fun h => k5 (by omega)⟩

/-- Training. -/
theorem train_ok {σ : Sched} (hσ : σ.Valid) {σs : Nat → Sched} (hσs : ∀ n, (σs n).Valid)
    (nextStep : List S → List S → DMat S → DMat S → S) (stop : DMat S → Bool) {x : List S} (hx : x.length = 9)
    {w : World S} (hw : w.nextId < usizeMax) (n : Nat) :
    ∃ t, Rec t ∧ record w = (.ok t, w.afterTape) ∧ ∀ (P : State S → Prop),
      (∀ s, s.params = x → s.step = Flt.one → s.iterations = 0 → Inv t x s → P s) →
      (∀ s s', P s → Inv t x s → Inv t x s' → Next nextStep s s' → stop s.g = false → P s') →
      ∃ s, train σ σs nextStep stop x n w = (.ok s, w.afterTape) ∧ Inv t x s ∧ P s ∧ s.iterations ≤ n ∧
        (s.iterations < n → stop s.g = true) := by
  obtain ⟨t, h1, h2⟩ := record_ok hw
  refine ⟨t, h2, h1, fun P hP0 hP => ?_⟩
  obtain ⟨s0, e1, e2, e3, e4, e5⟩ := enter_ok hσ h2 hx
  obtain ⟨s, k1, k2, k3, k4, k5⟩ := loop_ok hσs h2 nextStep stop P hP n s0 e2 (hP0 s0 e4 e3 e5 e2)
  refine ⟨s, ?_, k2, k3, by omega, fun h => k5 (by omega)⟩
  rw [train, M.bind_ok h1, e1, bind_ok_eq, k1]
  rfl

end Adv.Nn
