import Verif.Model.FwOptimise
import Verif.Spec.FwOptimise
import Verif.Proof.FwDeriv
import Verif.Proof.FwGradient

/-! # Proofs about the optimisation in the Floyd-Warshall example -/

set_option linter.unusedSectionVars false

namespace Adv.Fw
open Finset
open scoped Adv

variable {K : Type} [Field K] [LinearOrder K] [IsStrictOrderedRing K] [Flt K] [LawfulFlt K]

/-- What `zero_order` returns. -/
def valueAt (N : Net K) (x : List K) : K :=
  (badS unitSh N.n (exitPairs N.exits) (distS unitSh N (fun i => (x.getD i 0, ())) N.n)).1

/-- The entries of what `calculate_gradient` returns. -/
def slope (N : Net K) (x : List K) (j : Nat) : K := lin N (fun i => x.getD i 0) (N.n + 2) 0 fun i => if i = j then 1 else 0

theorem list_range {x : List K} {L : Nat} (hx : x.length = L) : x = (List.range L).map fun i => x.getD i 0 := by
  apply List.ext_getElem (by simp [hx])
  intro i h1 h2
  simp [h1]

/-- Ids used by one iteration. -/
def cost (N : Net K) : Nat := N.n + (Ckpt.revCost (N.n + 3) (N.n - 1) + (N.n + 2))

/-- The circumstances of the optimisation. -/
structure Setup (N : Net K) (tapes : Tape K × Tape K) (est : Int → Int → Int) (capMax : Nat) : Prop where
  ok : N.Ok
  recd : Recorded N tapes
  l0 : LinkTape N 0 tapes.1
  l1 : LinkTape N (N.n + 1) tapes.2
  est : Ckpt.SoundEst est
  two : 2 ≤ N.n
  cap : N.n ≤ capMax
  size : Ckpt.SizeOk (N.n + 2) N.n
  small : N.n + 3 < 2 ^ 64

variable {N : Net K} {tapes : Tape K × Tape K} {est : Int → Int → Int} {capMax : Nat}

theorem Setup.value (h : Setup N tapes est capMax) {x : List K} (hx : x.length = N.lights) {w : World K}
    (hw : w.nextId + N.n ≤ usizeMax) :
    ∃ w', zeroOrder N tapes x w = (.ok (valueAt N x), w') ∧ w'.nextId = w.nextId + N.n := by
  obtain ⟨w', e, hn⟩ := zeroOrder_eval (sh := unitSh) h.ok h.recd (fun i => (x.getD i 0, ())) hw
  refine ⟨w', ?_, hn⟩
  rw [← list_range hx] at e
  exact e

theorem Setup.gradient (h : Setup N tapes est capMax) {σ : Sched} (hσ : σ.Valid) {x : List K} (hx : x.length = N.lights)
    {s : Ckpt.World (World K)} (hw : s.w.nextId + (Ckpt.revCost (N.n + 3) (N.n - 1) + (N.n + 2)) ≤ usizeMax) :
    ∃ g s', calculateGradient σ est capMax N tapes x s = (.ok g, s') ∧
      s'.w.nextId ≤ s.w.nextId + (Ckpt.revCost (N.n + 3) (N.n - 1) + (N.n + 2)) ∧
      g.nrows = N.lights ∧ g.ncols = 1 ∧ ∀ j < N.lights, g.get j 0 = slope N x j := by
  obtain ⟨g, s', e, h1, h2, h3, h4⟩ := calculateGradient_lin h.ok h.l0 h.l1 (fun i => x.getD i 0) hσ h.est h.two h.cap h.size
    h.small hw
  rw [← list_range hx] at e
  refine ⟨g, s', e, h1, h2, h3, fun j hj => ?_⟩
  rw [slope, ← h4]
  simp [hj]

/-- What holds before and after each iteration. -/
structure Inv (N : Net K) (s : Opt K) : Prop where
  len : s.params.length = N.lights
  nrows : s.g.nrows = N.lights
  ncols : s.g.ncols = 1
  grad : ∀ j < N.lights, s.g.get j 0 = slope N s.params j

/-- One iteration. -/
structure Next (N : Net K) (nextStep : List K → List K → DMat K → DMat K → K) (s s' : Opt K) : Prop where
  params : s'.params = (List.range N.lights).map fun i => s.params.getD i 0 - s.step * s.g.get i 0
  step : s'.step = nextStep s.params s'.params s.g s'.g
  iterations : s'.iterations = s.iterations + 1
  printed : s'.printed = s.printed ++ [Flt.sqrt (valueAt N s.params)]

theorem call_ok {W α : Type} {m : M W α} {s : Ckpt.World W} {a : α} {w' : W} (h : m s.w = (.ok a, w')) :
    Ckpt.call m s = (.ok a, { s with w := w' }) := by
  unfold Ckpt.call
  rw [h]

theorem Setup.enter (h : Setup N tapes est capMax) {σ : Sched} (hσ : σ.Valid) {x : List K} (hx : x.length = N.lights)
    (st : K) {s : Ckpt.World (World K)} (hw : s.w.nextId + cost N ≤ usizeMax) :
    ∃ o s', enter σ est capMax N tapes x st s = (.ok o, s') ∧ s'.w.nextId ≤ s.w.nextId + cost N ∧ Inv N o ∧
      o.params = x ∧ o.step = st ∧ o.iterations = 0 ∧ o.printed = [Flt.sqrt (valueAt N x)] := by
  unfold cost at hw
  obtain ⟨w', e1, h1⟩ := h.value hx (w := s.w) (by omega)
  obtain ⟨g, s', e2, h2, h3, h4, h5⟩ := h.gradient hσ hx (s := { s with w := w' }) (by simp only; omega)
  refine ⟨⟨x, g, st, 0, [Flt.sqrt (valueAt N x)]⟩, s', ?_, by simp only at h2; unfold cost; omega, ⟨hx, h3, h4, h5⟩, rfl, rfl, rfl, rfl⟩
  rw [Fw.enter, M.bind_ok (call_ok e1), M.bind_ok e2]
  rfl

theorem Setup.body (h : Setup N tapes est capMax) {σ : Sched} (hσ : σ.Valid)
    (nextStep : List K → List K → DMat K → DMat K → K) {o : Opt K} (ho : Inv N o) {s : Ckpt.World (World K)}
    (hw : s.w.nextId + cost N ≤ usizeMax) :
    ∃ o' s', body σ est capMax N tapes nextStep o s = (.ok o', s') ∧ s'.w.nextId ≤ s.w.nextId + cost N ∧ Inv N o' ∧
      Next N nextStep o o' := by
  unfold cost at hw
  obtain ⟨w', e1, h1⟩ := h.value ho.len (w := s.w) (by omega)
  have hc : Nn.colSub o.params o.step o.g =
      .ok ((List.range N.lights).map fun i => o.params.getD i 0 - o.step * o.g.get i 0) := by
    have : assertR (decide (o.g.nrows = o.params.length ∧ o.g.ncols = 1)) = .ok () := by
      rw [ho.nrows, ho.ncols, ho.len]; simp [assertR]
    rw [Nn.colSub, this, bind_ok_eq, ho.len]
    simp only [LawfulFlt.sub_eq, LawfulFlt.mul_eq, LawfulFlt.zero_eq]
    rfl
  set new := (List.range N.lights).map fun i => o.params.getD i 0 - o.step * o.g.get i 0 with hnew
  have hl : new.length = N.lights := by simp [hnew]
  obtain ⟨g, s', e2, h2, h3, h4, h5⟩ := h.gradient hσ hl (s := { s with w := w' }) (by simp only; omega)
  refine ⟨⟨new, g, nextStep o.params new o.g g, o.iterations + 1, o.printed ++ [Flt.sqrt (valueAt N o.params)]⟩, s', ?_,
    by simp only at h2; unfold cost; omega, ⟨hl, h3, h4, h5⟩, ⟨hnew, rfl, rfl, rfl⟩⟩
  rw [Fw.body, hc, Ckpt.lift_ok_bind, M.bind_ok (call_ok e1), M.bind_ok e2]
  rfl

theorem Setup.loop (h : Setup N tapes est capMax) {σ : Nat → Sched} (hσ : ∀ n, (σ n).Valid)
    (nextStep : List K → List K → DMat K → DMat K → K) (stop : DMat K → Bool) (P : Opt K → Prop)
    (hP : ∀ o o', P o → Inv N o → Inv N o' → Next N nextStep o o' → stop o.g = false → P o') :
    ∀ (n : Nat) (o : Opt K) (s : Ckpt.World (World K)), Inv N o → P o → s.w.nextId + n * cost N ≤ usizeMax →
      ∃ o' s', loop σ est capMax N tapes nextStep stop n o s = (.ok o', s') ∧ Inv N o' ∧ P o' ∧
        o'.iterations ≤ o.iterations + n ∧ (o'.iterations < o.iterations + n → stop o'.g = true) := by
  intro n
  induction n with
  | zero => intro o s ho hp _; exact ⟨o, s, rfl, ho, hp, by omega, fun h => absurd h (by omega)⟩
  | succ n ih =>
    intro o s ho hp hw
    rw [Nat.succ_mul] at hw
    rw [Fw.loop]
    by_cases hst : stop o.g = true
    · rw [if_pos hst]
      exact ⟨o, s, rfl, ho, hp, by omega, fun _ => hst⟩
    · obtain ⟨o1, s1, e1, h1, h2, h3⟩ := h.body (hσ n) nextStep ho (s := s) (by omega)
      obtain ⟨o2, s2, k1, k2, k3, k4, k5⟩ := ih o1 s1 h2 (hP o o1 hp ho h2 h3 (by simpa using hst)) (by omega)
      rw [if_neg hst, M.bind_ok e1]
      have := h3.iterations
      exact ⟨o2, s2, k1, k2, k3, by omega, fun h => k5 (by omega)⟩

/-- The whole optimisation. -/
theorem optimise_ok (hN : N.Ok) (hest : Ckpt.SoundEst est) (hn : 2 ≤ N.n) (hcap : N.n ≤ capMax)
    (hsz : Ckpt.SizeOk (N.n + 2) N.n) (hlt : N.n + 3 < 2 ^ 64) {σ : Sched} (hσ : σ.Valid) {σs : Nat → Sched}
    (hσs : ∀ n, (σs n).Valid) (nextStep : List K → List K → DMat K → DMat K → K) (stop : DMat K → Bool) {x : List K}
    (hx : x.length = N.lights) (st : K) (n : Nat) {s : Ckpt.World (World K)}
    (hw : s.w.nextId + (2 + (n + 1) * cost N) ≤ usizeMax) :
    ∃ tapes w1, record N s.w = (.ok tapes, w1) ∧ Setup N tapes est capMax ∧ ∀ (P : Opt K → Prop),
      (∀ o, o.params = x → o.step = st → o.iterations = 0 → o.printed = [Flt.sqrt (valueAt N x)] → Inv N o → P o) →
      (∀ o o', P o → Inv N o → Inv N o' → Next N nextStep o o' → stop o.g = false → P o') →
      ∃ o s', optimise σ σs est capMax N nextStep stop x st n s = (.ok o, s') ∧ Inv N o ∧ P o ∧ o.iterations ≤ n ∧
        (o.iterations < n → stop o.g = true) := by
  obtain ⟨tapes, w1, e, hr, hid⟩ := record_ok hN (w := s.w) (by omega)
  obtain ⟨l0, l1⟩ := record_tapes hN (by omega) e
  have h : Setup N tapes est capMax := ⟨hN, hr, l0, l1, hest, hn, hcap, hsz, hlt⟩
  refine ⟨tapes, w1, e, h, fun P hP0 hP => ?_⟩
  rw [Nat.succ_mul] at hw
  obtain ⟨o0, s1, e1, h1, h2, h3, h4, h5, h6⟩ := h.enter hσ hx st (s := { s with w := w1 }) (by simp only; omega)
  simp only at h1
  obtain ⟨o, s2, k1, k2, k3, k4, k5⟩ := h.loop hσs nextStep stop P hP n o0 s1 h2 (hP0 o0 h3 h4 h5 h6 h2) (by omega)
  refine ⟨o, s2, ?_, k2, k3, by omega, fun h => k5 (by omega)⟩
  rw [optimise, M.bind_ok (call_ok e), M.bind_ok e1]
  exact k1

end Adv.Fw
