import Verif.Proof.CkptCost
import Verif.Props.Checkpointing

/-!
# Property C59: the checkpointing scheme does as few forward steps as possible

`Play N S r k` (`Spec/CkptCost.lean`) is the game of producing the states `r-1, …, 0` of a sequence with room for at
most `N` of them; it knows nothing about schedules or binomial coefficients.
-/

namespace Adv.Props
open Adv Adv.Ckpt

variable {T R : Type}

/-- `reverse_sequence` calls `forward` exactly `∑ₖ max(0, n+1 - binomial(N-1+k, N-1))` times, whatever the estimate of
the root that starts the search for the schedule, as long as it is not too large. -/
theorem C59_forward_calls {est : Int → Int → Int} (hest : SoundEst est) {n N capMax : Nat} (hn : n + 1 < 2 ^ 64)
    (hsz : SizeOk n N) (hN : 2 ≤ N) (hcap : N ≤ capMax) (f : T → T) (rev : T → R → R) (idn : T → R) (x0 : T) :
    ∃ res log p, reverseSequence est capMax x0 n N (fun x => logged (.fwd x) (f x))
        (fun x y => logged (.rev x y) (rev x y)) (fun x => logged (.idn x) (idn x)) ⟨[], 0⟩ = (.ok res, ⟨log, p⟩) ∧
      log.countP (·.isFwd) = revCost (n + 1) (N - 1) := by
  obtain ⟨res, extra, p, h1, h2⟩ := reverseSequence_count (R := R) f rev idn x0 hest hn hsz hN hcap ⟨[], 0⟩
  exact ⟨res, extra, p, by simpa using h1, h2⟩

example : (reverseSequence lowEst 1000 0 9 3 (fun x : Nat => logged (.fwd x) (x + 1))
    (fun x y => logged (.rev x y) (x + y)) (fun x => logged (.idn x) x) ⟨([] : List (Call Nat Nat)), 0⟩).2.w.countP
      (·.isFwd) = 20 ∧ revCost 10 2 = 20 := by decide +kernel

/-- The same number in closed form: `t·(n+1) - binomial(c+t, t-1)` where `c = N-1` states can be kept besides the first
one and `t`, the least number with `n+1 ≤ binomial(c+t, c)`, is the number of times a state is computed at most. -/
theorem C59_closed_form {c r t : Nat} (hc : 1 ≤ c) (hr : 1 ≤ r) (h : IsLeastT c r t) :
    revCost r c + Nat.choose (c + t) (t - 1) = t * r :=
  revCost_closed hc hr h

example : IsLeastT 2 10 3 ∧ revCost 10 2 + Nat.choose 5 2 = 3 * 10 := by
  refine ⟨⟨by omega, by decide, ?_⟩, by decide⟩
  intro t h1 h2
  by_contra h
  interval_cases t <;> revert h2 <;> decide

/-- No way of reversing `n` steps with at most `N` states in memory needs fewer applications of `f` than
`reverse_sequence` does. -/
theorem C59_optimal {est : Int → Int → Int} (hest : SoundEst est) {n N capMax : Nat} (hn : n + 1 < 2 ^ 64)
    (hsz : SizeOk n N) (hN : 2 ≤ N) (hcap : N ≤ capMax) (f : T → T) (rev : T → R → R) (idn : T → R) (x0 : T)
    {k : Nat} (h : Play N {0} (n + 1) k) :
    ∃ res log p, reverseSequence est capMax x0 n N (fun x => logged (.fwd x) (f x))
        (fun x y => logged (.rev x y) (rev x y)) (fun x => logged (.idn x) (idn x)) ⟨[], 0⟩ = (.ok res, ⟨log, p⟩) ∧
      log.countP (·.isFwd) ≤ k := by
  obtain ⟨res, log, p, h1, h2⟩ := C59_forward_calls hest hn hsz hN hcap f rev idn x0
  exact ⟨res, log, p, h1, h2 ▸ h.cost hN⟩

/-- The game can be played with that many steps, so that the bound is not an artefact of rules that are too strict. -/
theorem C59_attained {n N : Nat} (hN : 2 ≤ N) : Play N {0} (n + 1) (revCost (n + 1) (N - 1)) := by
  have := Play.attained (N := N) (n + 1) (N - 1) {0} 0 0 (by omega) (by omega) (by simp) (by simp)
    (by simp; omega) (.done _)
  simpa using this

/-- Three states with room for two: the first is computed once, then both again. -/
example : Play 2 {0} 3 3 := C59_attained (n := 2) (N := 2) (by omega)

/-- With room for two states only, nothing is better than computing every state from the first one. -/
theorem C59_two {n : Nat} : 2 * revCost (n + 1) 1 = n * (n + 1) := by
  induction n with
  | zero => rfl
  | succ n ih =>
    have h := revCost_split_one (x := n + 1) (by omega)
    have h0 : revCost 1 0 = 0 := revCost_one 0
    rw [h, h0]
    calc 2 * (n + 1 + revCost (n + 1) 1 + 0) = 2 * (n + 1) + 2 * revCost (n + 1) 1 := by omega
      _ = (n + 1) * (n + 1 + 1) := by rw [ih]; ring

end Adv.Props
