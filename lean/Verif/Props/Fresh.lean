import Verif.Proof.Fresh
import Verif.Proof.Probe
import Verif.Props.Chain
import Verif.Props.Jacobian
import Verif.Props.Deriv

/-!
# Functions that do not repeat registrations: C67
-/

set_option linter.unusedSectionVars false

namespace Adv.Props
open Adv Ckpt
open scoped Adv

section any
variable {S : Type} [Flt S]

/-! ## Examples of the conditions -/

theorem absOnce_assertLen (m : Nat) (p : Prog S) (n : Nat) (used : List Nat) (h : p.AbsOnce n used) :
    (p.assertLen m).AbsOnce n used := by
  induction p generalizing n used with
  | ret outs => simp only [Prog.assertLen]; split <;> trivial
  | panic => trivial
  | op o a b k ih =>
    simp only [Prog.assertLen]
    cases o <;> cases a <;> first | exact fun v => ih _ _ _ _ (h v) | exact ⟨h.1, fun v => ih _ _ _ _ (h.2 v)⟩

theorem outs_assertLen (P : List (Arg S) → Prop) (m : Nat) (p : Prog S) (n : Nat) (h : p.Outs P n) :
    (p.assertLen m).Outs P n := by
  induction p generalizing n with
  | ret outs =>
    simp only [Prog.assertLen]
    split
    · exact h
    · trivial
  | panic => trivial
  | op o a b k ih => exact fun v => ih _ _ _ (h v)

/-- The checks that `adv_fn!` adds do not matter. -/
theorem tidy_advFn {n m : Nat} {body : List S → Prog S}
    (h : ∀ xs : List S, xs.length = n → (body xs).AbsOnce n [] ∧ (body xs).Outs DistinctVars n) :
    (Func.advFn n m body).Tidy := by
  intro p hp xs
  simp only [Func.advFn, Func.progs, List.mem_singleton] at hp
  subst hp
  by_cases hl : xs.length = n
  · simp only [if_pos hl]
    rw [hl]
    exact ⟨absOnce_assertLen _ _ _ _ (h xs hl).1, outs_assertLen _ _ _ _ (h xs hl).2⟩
  · simp only [if_neg hl]
    exact ⟨trivial, trivial⟩

theorem distinctVars_single (a : Arg S) : DistinctVars [a] := by
  intro i p q hp hq
  have h1 := (List.getElem?_eq_some_iff.mp hp).1
  have h2 := (List.getElem?_eq_some_iff.mp hq).1
  simp only [List.length_singleton] at h1 h2
  omega

theorem nestF_tidy : nestF.Tidy :=
  tidy_advFn fun _ _ => ⟨⟨by simp, fun _ => fun _ => ⟨by simp, fun _ => trivial⟩⟩,
    fun _ => fun _ => fun _ => distinctVars_single _⟩

/-! ## C67: distinct registrations -/

/-- C67: if no variable is returned twice, the dependents of the recorded tape are distinct. -/
theorem C67_outputs_distinct {n m : Nat} {p : List S → Prog S} {x : List S} {w w' : World S} {t : Tape S}
    (hw : w.nextId < usizeMax) (ht : (Func.simple n m p).tape x w = (.ok t, w'))
    (h : (p x).Outs DistinctVars x.length) : t.deps.Nodup := by
  obtain ⟨outs, h1, h2, h3, -⟩ := (Func.tape_ids hw ht DistinctVars).outs h
  rw [List.nodup_iff_injective_getElem]
  rintro ⟨a, ha⟩ ⟨b, hb⟩ hab
  simp only at hab
  rcases h3 a b t.deps[a] (List.getElem?_eq_getElem ha) (by rw [hab]; exact List.getElem?_eq_getElem hb) with h | ⟨i, h4, h5⟩
  · simp [h]
  · simp [h1 i a b h4 h5]

/-- C67: if the absolute value of no variable is taken twice, the switching variables of the recorded tape are
distinct. -/
theorem C67_abs_distinct {n m : Nat} {p : List S → Prog S} {x : List S} {w w' : World S} {t : Tape S}
    (hw : w.nextId < usizeMax) (ht : (Func.simple n m p).tape x w = (.ok t, w'))
    (h : (p x).AbsOnce x.length []) : t.switching.deps.Nodup := by
  have hs := (Func.tape_spec (.simple n m p) x w hw).2
  rw [ht] at hs
  obtain ⟨_, -, hs⟩ := hs.ok_left
  have := (Func.tape_ids hw ht DistinctVars).abs h
  have e : t.switching.deps = zIds t := by
    show t.absOps.filterMap Operation.arg1 = t.absOps.map Operation.a1
    rw [← List.filterMap_eq_map]
    apply List.filterMap_congr
    intro op hop
    exact (hs.wf.abs_arg hop).1
  rw [e]; exact this

/-- C67: if the function takes no absolute value, neither does the tape: only operations of the function and constants are
recorded. -/
theorem C67_no_abs {n m : Nat} {p : List S → Prog S} {x : List S} {w w' : World S} {t : Tape S}
    (hw : w.nextId < usizeMax) (ht : (Func.simple n m p).tape x w = (.ok t, w'))
    (h : (p x).Ops (· ≠ .Abs)) : t.AbsFree :=
  (Func.tape_ids hw ht DistinctVars).ops _ (by decide) h

/-- C67: if every operation has an operand that depends on the inputs, returning a variable twice is the only way to get
a repeated dependent. -/
theorem C67_outputs_iff {n m : Nat} {p : List S → Prog S} {x : List S} {w w' : World S} {t : Tape S}
    (hw : w.nextId < usizeMax) (ht : (Func.simple n m p).tape x w = (.ok t, w')) (hc : (p x).NoConstOps)
    {outs : List (Arg S)} (ho : (p x).Outs (· = outs) x.length) : t.deps.Nodup ↔ DistinctVars outs := by
  obtain ⟨outs', rfl, h2, h3, h4⟩ := (Func.tape_ids hw ht (· = outs)).outs ho
  constructor
  · intro hn i a b ha hb
    have hla : a < t.deps.length := by rw [← h2]; exact (List.getElem?_eq_some_iff.mp ha).1
    exact (List.getElem?_inj hla hn).mp (h4 hc a b i ha hb)
  · intro h1
    rw [List.nodup_iff_injective_getElem]
    rintro ⟨a, ha⟩ ⟨b, hb⟩ hab
    simp only at hab
    rcases h3 a b t.deps[a] (List.getElem?_eq_getElem ha) (by rw [hab]; exact List.getElem?_eq_getElem hb) with h | ⟨i, h4, h5⟩
    · simp [h]
    · simp [h1 i a b h4 h5]

/-- The links of a tidy function have tapes without repetitions, whatever the point. -/
theorem C67_links {w : World S} (hw : w.nextId < usizeMax) (f : Func S) (hf : f.Tidy) (x : List S) :
    LinkTapes w (fun t => t.switching.deps.Nodup ∧ t.deps.Nodup) f.flatten x := by
  have key : ∀ (fs : List (Func S)), (∀ g ∈ fs, g.Tidy ∧ ∃ n m p, g = .simple n m p) → ∀ x,
      LinkTapes w (fun t => t.switching.deps.Nodup ∧ t.deps.Nodup) fs x := by
    intro fs
    induction fs with
    | nil => intro _ _; trivial
    | cons g fs ih =>
      intro h x
      refine ⟨?_, fun y _ => ih (fun g hg => h g (by simp [hg])) y⟩
      obtain ⟨hg, n, m, p, rfl⟩ := h g (by simp)
      intro t ht
      have hp := hg p (by simp [Func.progs]) x
      have ht' : (Func.simple n m p).tape x w = (.ok t, ((Func.simple n m p).tape x w).2) := Prod.ext ht rfl
      exact ⟨C67_abs_distinct hw ht' hp.1, C67_outputs_distinct hw ht' hp.2⟩
  apply key
  intro g hg
  refine ⟨?_, flatten_simple f g hg⟩
  intro p hp
  apply hf p
  clear key
  have : ∀ (fs : List (Func S)), Func.progsAll fs = fs.flatMap Func.progs := by
    intro fs
    induction fs with
    | nil => rfl
    | cons a fs ih => rw [Func.progsAll, ih]; rfl
  have hfl : f.progs = Func.progsAll f.flatten := by
    rw [Func.progs_flatten]
  rw [hfl, this]
  exact List.mem_flatMap.mpr ⟨g, hg, hp⟩

/-- The maximum of two inputs as `Float::max` computes it, afloat.rs:364-366. -/
def maxProg : Func ℚ := Func.advFn 2 1 fun _ =>
  .op .Add (.var 0) (some (.var 1)) fun s _ => .op .Sub (.var 0) (some (.var 1)) fun d _ =>
  .op .Abs (.var d) none fun a _ => .op .Add (.var s) (some (.var a)) fun r _ =>
  .op .Mul (.lit (1 / 2)) (some (.var r)) fun q _ => .ret [.var q]

example : nestF.Tidy ∧ maxProg.Tidy ∧ (maxProg.tape [1, 2] Demo.w0).1.isOk = true ∧
    (Func.chain [maxProg, nestF]).Tidy := by
  have h : maxProg.Tidy := tidy_advFn fun _ _ =>
    ⟨fun _ => fun _ => ⟨by simp, fun _ => fun _ => fun _ => trivial⟩,
      fun _ => fun _ => fun _ => fun _ => fun _ => distinctVars_single _⟩
  refine ⟨nestF_tidy, h, by decide +kernel, ?_⟩
  intro p hp
  simp only [Func.progs, Func.progsAll, List.append_nil, List.mem_append] at hp
  exact hp.elim (h p) (nestF_tidy p)

/-- `(x, y) ↦ |x| + |x|` is not tidy, nor is `x ↦ (x, x)`; their tapes have repetitions. -/
example : ¬ twiceF.Tidy ∧ ¬ dupF.Tidy ∧ ¬ twiceTape.switching.deps.Nodup ∧ ¬ dupTape.deps.Nodup := by
  refine ⟨?_, ?_, by decide +kernel, by decide +kernel⟩
  · intro h
    have := (h _ (by simp [twiceF, Func.advFn, Func.progs]; rfl) [0, 0]).1
    simp [Prog.assertLen, Prog.AbsOnce] at this
  · intro h
    have := (h _ (by simp [dupF, Func.advFn, Func.progs]; rfl) [0]).2
    simp [Prog.assertLen, Prog.Outs] at this
    exact absurd (this 0 0 1 rfl rfl) (by decide)

end any

section field
variable {K : Type} [Field K] [LinearOrder K] [IsStrictOrderedRing K] [Flt K] [LawfulFlt K]

/-- C67, consequence for Jacobians: if the function returns no variable twice, both drivers agree (C12). -/
theorem C67_jacobians_agree {σ σ' : Sched} (hσ : σ.Valid) (hσ' : σ'.Valid) {n m : Nat} {p : List K → Prog K} {x : List K}
    {w w' w'' : World K} {t : Tape K} (hw : w.nextId < usizeMax) (e : (Func.simple n m p).tape x w = (.ok t, w'))
    (hn : x.length = n) (hm : t.numDeps = m) (ha : t.AbsFree) (h : (p x).Outs DistinctVars x.length) :
    ∃ J, jacobianForward σ (.simple n m p) x w'' = (.ok J, w'') ∧ jacobianReverse σ' t = .ok J ∧
      J.nrows = t.numDeps ∧ J.ncols = x.length :=
  C12_forward_eq_reverse_partial hσ hσ' _ hw e (by rw [Func.n, hn]) (by rw [Func.m, hm]) ha (C67_outputs_distinct hw e h)

/-- C67, consequence for generalized Jacobians: for tidy functions, `(G, γ)` is exact at `dx` (C19). -/
theorem C67_generalized_jacobian {σ : Sched} (hσ : σ.Valid) {n m : Nat} {p : List K → Prog K} {x dx : List K} {w w' : World K}
    {t : Tape K} (hw : w.nextId < usizeMax) (e : (Func.simple n m p).tape x w = (.ok t, w')) (hn : x.length = n)
    (hx : dx.length = x.length) (hf : (Func.simple n m p).Tidy) (bits : List UInt8) :
    ∃ R, generalizedJacobian σ (.simple n m p) x dx bits none w = (.ok R, w') ∧ R.homogenous.nrows = t.numDeps ∧
      R.homogenous.ncols = x.length ∧ R.inhomogenous.length = t.numDeps ∧
      t.firstOrderForward dx = .ok (affine R.homogenous R.inhomogenous dx) := by
  have hp := hf p (by simp [Func.progs]) x
  exact C19_exact_at_dx_partial hσ _ hw e (by rw [Func.n, hn]) hx (C67_abs_distinct hw e hp.1)
    (C67_outputs_distinct hw e hp.2) bits

/-- C67, consequence for chains: if every link is tidy, the generalized Jacobian of the chain is exact at `dx` (C24). -/
theorem C67_chain {σ : Sched} (hσ : σ.Valid) {est : Int → Int → Int} (hest : SoundEst est) {capMax : Nat}
    (fs : List (Func K)) {x dx : List K} {N : Nat} (hn : (Func.chain fs).len + 1 < 2 ^ 64) (hN : 2 ≤ N)
    (hsz : SizeOk (Func.chain fs).len N) (hcap : N ≤ capMax) {s : Ckpt.World (World K)}
    (hw : s.w.nextId + (Func.chain fs).len ≤ usizeMax) {w0 : World K} (hw0 : w0.nextId < usizeMax)
    (hl : dx.length = x.length) {R : GenJac K}
    (h : (generalizedJacobianChain σ est capMax (.chain fs) x dx (some N) s).1 = .ok R) (hf : (Func.chain fs).Tidy) :
    ∃ ys, ((Func.chain fs).eval ((x.zip dx).map fun p => AFloat.new p.1 p.2) w0).1 = .ok ys ∧
      affine R.homogenous R.inhomogenous dx = ys.map AFloat.dv :=
  C24_exact_partial hσ hest fs hn hN hsz hcap hw hw0 hl h (C67_links hw0 _ hf x)

end field

/-- The hypotheses hold for `nestF` and for a chain of it; the result is that of the example after C24. -/
example : (nestF.tape [3] Demo.w0).1 = .ok nestTape ∧ nestF.Tidy ∧ (Func.chain [nestF, .chain [nestF]]).Tidy ∧
    (generalizedJacobian Sched.seq nestF [3] [-7] [] none Demo.w0).1.map (fun R => R.homogenous.toRows) = .ok [[-1]] ∧
    ((generalizedJacobianChain Sched.seq lowEst 10 (.chain [nestF, .chain [nestF]]) [3] [-7] (some 2)
      ⟨Demo.w0, 0⟩).1.map fun R => (R.homogenous.toRows, R.inhomogenous, R.multiplicity)) = .ok ([[-1]], [-6], 0) := by
  refine ⟨nestTape_eq, nestF_tidy, ?_, by decide +kernel, by decide +kernel⟩
  intro p hp
  simp only [Func.progs, Func.progsAll, List.append_nil, List.mem_append, or_self] at hp
  exact nestF_tidy p hp

/-- `Demo.smoothF` returns distinct variables and uses no abs. -/
example : Demo.smoothF.Tidy ∧ (Demo.smoothF.tape [2, 3] Demo.w0).1 = .ok smoothTape ∧ smoothTape.AbsFree := by
  refine ⟨tidy_advFn fun _ _ => ⟨?_, ?_⟩, by decide +kernel, smoothTape_absFree⟩
  · simp [Prog.AbsOnce]
  · intro v v' v'' i p q hp hq
    rcases p with _ | _ | p <;> rcases q with _ | _ | q <;> simp_all <;> omega
end Adv.Props
