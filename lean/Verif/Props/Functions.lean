import Verif.Proof.Eval
import Verif.Spec.Demo

/-!
# Functions and chains: C32, C33, C46
-/

set_option linter.unusedSectionVars false

set_option linter.unusedSimpArgs false

namespace Adv.Props
open Adv

variable {S : Type} [Flt S]

/-! ## C32 -/

/-- Left-to-right composition of functions. -/
def composeAll : List (Func S) → List (AFloat S) → M (World S) (List (AFloat S))
  | [], x => pure x
  | f :: fs, x => do composeAll fs (← f.eval x)

/-- C32: a chain evaluates as the composition of its links. -/
theorem C32_chain_eval_composition (fs : List (Func S)) (x : List (AFloat S)) :
    (Func.chain fs).eval x = composeAll fs x := by
  rw [Func.eval]
  induction fs generalizing x with
  | nil => rfl
  | cons f fs ih => simp only [Func.evalAll, composeAll]; congr 1; funext y; exact ih y

theorem composeAll_append (fs gs : List (Func S)) (x : List (AFloat S)) :
    composeAll (fs ++ gs) x = (do composeAll gs (← composeAll fs x)) := by
  induction fs generalizing x with
  | nil => simp [composeAll]
  | cons f fs ih => simp [composeAll, ih]

mutual
theorem flatten_eval : ∀ (f : Func S) (x : List (AFloat S)), composeAll f.flatten x = f.eval x
  | .simple n m f, x => by simp [Func.flatten, composeAll]
  | .chain fs, x => by rw [Func.flatten, flattenAll_eval fs x, C32_chain_eval_composition]
theorem flattenAll_eval : ∀ (fs : List (Func S)) (x : List (AFloat S)),
    composeAll (Func.flattenAll fs) x = composeAll fs x
  | [], x => rfl
  | f :: fs, x => by
      simp only [Func.flattenAll, composeAll_append, composeAll, flatten_eval f x]
      congr 1; funext y; exact flattenAll_eval fs y
end

/-- C32: nesting does not matter: a chain evaluates as the composition of its flattened links. -/
theorem C32_nesting_irrelevant (fs : List (Func S)) (x : List (AFloat S)) :
    (Func.chain fs).eval x = composeAll (Func.chain fs).flatten x := (flatten_eval _ x).symm

mutual
theorem flatten_simple : ∀ (f : Func S), ∀ g ∈ f.flatten, ∃ n m p, g = .simple n m p
  | .simple n m f => by intro g hg; simp [Func.flatten] at hg; exact ⟨n, m, f, hg⟩
  | .chain fs => by rw [Func.flatten]; exact flattenAll_simple fs
theorem flattenAll_simple : ∀ (fs : List (Func S)), ∀ g ∈ Func.flattenAll fs, ∃ n m p, g = .simple n m p
  | [] => by intro g hg; cases hg
  | f :: fs => by
      intro g hg
      rw [Func.flattenAll, List.mem_append] at hg
      rcases hg with hg | hg
      · exact flatten_simple f g hg
      · exact flattenAll_simple fs g hg
end

theorem flattenAll_append (fs gs : List (Func S)) :
    Func.flattenAll (fs ++ gs) = Func.flattenAll fs ++ Func.flattenAll gs := by
  induction fs with
  | nil => rfl
  | cons f fs ih => simp [Func.flattenAll, ih]

/-- C32: the iterator sees only plain functions, `len` counts them and `nth` indexes them (panicking out
of range); nested chains contribute their own links in place. -/
theorem C32_flatten_len_nth (fs gs hs : List (Func S)) (idx : Nat) :
    (∀ g ∈ (Func.chain fs).flatten, ∃ n m p, g = .simple n m p) ∧
    (Func.chain (fs ++ Func.chain gs :: hs)).flatten = (Func.chain (fs ++ gs ++ hs)).flatten ∧
    (Func.chain fs).len = (Func.chain fs).flatten.length ∧
    ((∃ g, (Func.chain fs).nth idx = .ok g ∧ (Func.chain fs).flatten[idx]? = some g) ↔
      idx < (Func.chain fs).len) := by
  refine ⟨flatten_simple _, ?_, rfl, ?_⟩
  · simp [Func.flatten, flattenAll_append, Func.flattenAll]
  · unfold Func.nth Func.len
    rcases h : (Func.chain fs).flatten[idx]? with _ | g
    · simp only [unwrap]
      have := List.getElem?_eq_none_iff.mp h
      constructor
      · rintro ⟨g, hg, -⟩; cases hg
      · intro h'; omega
    · have := (List.getElem?_eq_some_iff.mp h).1
      exact ⟨fun _ => this, fun _ => ⟨g, rfl, rfl⟩⟩

/-- `|x y|, x + |x y|` followed by a nested chain. -/
def demoChain : Func ℚ := .chain [Demo.absF, .chain [Demo.smoothF, Demo.absF]]

example : demoChain.len = 3 ∧ (demoChain.eval [AFloat.new 2 0, AFloat.new (-3) 0] Demo.w0).1 =
    .ok [⟨240, 0, none⟩, ⟨288, 0, none⟩] := by decide +kernel

/-! ## C33 -/

/-- Chains that can be built with the public constructors. -/
inductive Built : Func S → Prop
  /-- any function object -/
  | simple (n m : Nat) (p : List S → Prog S) : Built (.simple n m p)
  /-- `FunctionChain::new(f)` -/
  | new {f : Func S} (h : Built f) : Built (.chain (Func.newChain f))
  /-- `chain.append(f)` -/
  | append {fs fs' : List (Func S)} {f : Func S} (h : Built (.chain fs)) (hf : Built f)
      (e : Func.append fs f = .ok fs') : Built (.chain fs')

/-- Declared dimensions of a plain function. -/
def dims : Func S → Option (Nat × Nat)
  | .simple n m _ => some (n, m)
  | .chain _ => none

/-- Adjacent dimensions match, the first input dimension is `n` and the last output dimension `m`. -/
def Linked : Nat → Nat → List (Func S) → Prop
  | _, _, [] => False
  | n, m, [f] => f.n = .ok n ∧ f.m = .ok m
  | n, m, f :: g :: fs => ∃ k, f.n = .ok n ∧ f.m = .ok k ∧ Linked k m (g :: fs)

theorem Linked.n_m {n m : Nat} {fs : List (Func S)} (h : Linked n m fs) :
    (Func.chain fs).n = .ok n ∧ (Func.chain fs).m = .ok m := by
  induction fs generalizing n with
  | nil => exact absurd h id
  | cons f fs ih =>
    cases fs with
    | nil => rw [Func.n, Func.m]; exact h
    | cons g fs =>
      obtain ⟨k, h1, h2, h3⟩ := h
      rw [Func.n, Func.m]
      exact ⟨h1, (ih h3).2⟩

theorem Linked.snoc {n k m : Nat} {fs gs : List (Func S)} (h : Linked n k fs) (h' : Linked k m gs) :
    Linked n m (fs ++ gs) := by
  induction fs generalizing n with
  | nil => exact absurd h id
  | cons f fs ih =>
    cases fs with
    | nil =>
      cases gs with
      | nil => exact absurd h' id
      | cons g gs => exact ⟨k, h.1, h.2, h'⟩
    | cons g fs =>
      obtain ⟨j, h1, h2, h3⟩ := h
      exact ⟨j, h1, h2, ih h3⟩

theorem Linked.last {n m : Nat} {fs : List (Func S)} (h : Linked n m fs) :
    ∃ l, fs.getLast? = some l ∧ l.m = .ok m := by
  induction fs generalizing n with
  | nil => exact absurd h id
  | cons f fs ih =>
    cases fs with
    | nil => exact ⟨f, rfl, h.2⟩
    | cons g fs =>
      obtain ⟨j, h1, h2, h3⟩ := h
      obtain ⟨l, h4, h5⟩ := ih h3
      exact ⟨l, by rw [List.getLast?_cons_cons]; exact h4, h5⟩

theorem Linked.cons_append {n k m : Nat} {fs gs : List (Func S)} (h : Linked n k fs)
    (h' : gs = [] ∧ k = m ∨ Linked k m gs) : Linked n m (fs ++ gs) := by
  rcases h' with ⟨rfl, rfl⟩ | h'
  · simpa using h
  · exact h.snoc h'

theorem bind_ok_iff {α β : Type} {m : Res α} {k : α → Res β} {b : β} :
    (m >>= k) = .ok b ↔ ∃ a, m = .ok a ∧ k a = .ok b := by
  rcases m with e | a
  · constructor
    · intro h; cases h
    · rintro ⟨_, h, _⟩; cases h
  · constructor
    · intro h; exact ⟨a, rfl, h⟩
    · rintro ⟨_, h, h'⟩; cases h; exact h'

/-- C33: what `append` checks: it panics unless the input dimension of the new link equals the output
dimension of the last one. -/
theorem C33_append_checks {fs fs' : List (Func S)} {f : Func S} :
    Func.append fs f = .ok fs' ↔
      ∃ l k, fs.getLast? = some l ∧ l.m = .ok k ∧ f.n = .ok k ∧ fs' = fs ++ [f] := by
  unfold Func.append
  rw [bind_ok_iff]
  constructor
  · rintro ⟨l, h1, h⟩
    obtain ⟨k, h2, h⟩ := bind_ok_iff.mp h
    obtain ⟨k', h3, h⟩ := bind_ok_iff.mp h
    obtain ⟨u, h4, h'⟩ := bind_ok_iff.mp h
    have hk : k = k' := by
      by_contra hne; simp [assertR, hne] at h4
    subst hk
    injection h' with h'
    refine ⟨l, k, ?_, h2, h3, h'.symm⟩
    rcases hgl : fs.getLast? with _ | l' <;> rw [hgl] at h1
    · cases h1
    · injection h1 with h1; rw [h1]
  · rintro ⟨l, k, h1, h2, h3, rfl⟩
    refine ⟨l, by rw [h1]; rfl, ?_⟩
    rw [h2, h3]
    simp [bind_ok_eq, assertR, pure, Except.pure]

theorem built_linked {f : Func S} (h : Built f) :
    ∃ n m, f.n = .ok n ∧ f.m = .ok m ∧ Linked n m f.flatten ∧
      ∀ fs, f = .chain fs → Linked n m fs ∧
        ∃ n' m', Linked n' m' (Func.flattenAll fs) ∧ n' = n ∧ m' = m := by
  induction h with
  | simple n m p =>
    exact ⟨n, m, by simp [Func.n], by simp [Func.m], by simp [Func.flatten, Linked, Func.n, Func.m], by intro fs h; cases h⟩
  | @new f h ih =>
    obtain ⟨n, m, h1, h2, h3, -⟩ := ih
    refine ⟨n, m, by rw [Func.newChain, Func.n, Func.nFirst, h1], by rw [Func.newChain, Func.m, Func.mLast, h2], ?_, ?_⟩
    · simpa [Func.flatten, Func.newChain, Func.flattenAll] using h3
    · rintro fs ⟨⟩
      refine ⟨⟨h1, h2⟩, n, m, ?_, rfl, rfl⟩
      simpa [Func.newChain, Func.flattenAll] using h3
  | @append fs fs' f h hf e ih ihf =>
    obtain ⟨n, m, h1, h2, h3, h4⟩ := ih
    obtain ⟨n2, m2, k1, k2, k3, -⟩ := ihf
    obtain ⟨l, k, e1, e2, e3, rfl⟩ := C33_append_checks.mp e
    obtain ⟨hl, -⟩ := h4 fs rfl
    obtain ⟨l', e4, e5⟩ := hl.last
    rw [e1] at e4; injection e4 with e4; subst e4
    rw [e2] at e5; injection e5 with e5; subst e5
    rw [k1] at e3; injection e3 with e3; subst e3
    have hl2 : Linked n m2 (fs ++ [f]) := hl.snoc ⟨k1, k2⟩
    have hfl : Linked n m2 (Func.flattenAll (fs ++ [f])) := by
      rw [flattenAll_append]
      have : Func.flattenAll [f] = f.flatten := by simp [Func.flattenAll]
      rw [this]
      have h3' : Linked n n2 (Func.flattenAll fs) := by simpa [Func.flatten] using h3
      exact h3'.snoc k3
    refine ⟨n, m2, hl2.n_m.1, hl2.n_m.2, by simpa [Func.flatten] using hfl, ?_⟩
    rintro _ ⟨⟩
    exact ⟨hl2, n, m2, hfl, rfl, rfl⟩

/-- C33: every chain built through the API is non-empty with matching adjacent dimensions, its `n()` is
that of its first and its `m()` that of its last link, and the same holds of its flattened links. -/
theorem C33_built_chains_consistent {fs : List (Func S)} (h : Built (.chain fs)) :
    ∃ n m, (Func.chain fs).n = .ok n ∧ (Func.chain fs).m = .ok m ∧ Linked n m fs ∧
      Linked n m (Func.chain fs).flatten := by
  obtain ⟨n, m, h1, h2, h3, h4⟩ := built_linked h
  exact ⟨n, m, h1, h2, (h4 fs rfl).1, h3⟩

example : Built demoChain :=
  .append (fs := [Demo.absF]) (f := .chain [Demo.smoothF, Demo.absF]) (.new (.simple _ _ _))
    (.append (fs := [Demo.smoothF]) (f := Demo.absF) (.new (.simple _ _ _)) (.simple _ _ _)
      (C33_append_checks.mpr ⟨Demo.smoothF, 2, rfl, by simp [Demo.smoothF, Func.advFn, Func.m],
        by simp [Demo.absF, Func.advFn, Func.n, Func.nFirst], rfl⟩))
    (C33_append_checks.mpr ⟨Demo.absF, 2, rfl, by simp [Demo.absF, Func.advFn, Func.m, Func.mLast],
      by simp [Demo.smoothF, Func.advFn, Func.n, Func.nFirst], rfl⟩)

/-- A link of dimension 1 cannot be appended to a chain with 2 outputs. -/
example (fs' : List (Func ℚ)) : Func.append [Demo.absF] Demo.branchF ≠ .ok fs' := by
  rw [Ne, C33_append_checks]
  rintro ⟨l, k, h1, h2, h3, -⟩
  simp at h1
  subst h1
  simp [Demo.absF, Func.advFn, Func.m, Func.mLast] at h2
  simp [Demo.branchF, Func.advFn, Func.n] at h3
  omega

/-! ## C46 -/

theorem mapM_length_ok {α β : Type} {f : α → Res β} {l : List α} {bs : List β} (h : l.mapM f = .ok bs) :
    bs.length = l.length := by
  induction l generalizing bs with
  | nil => simp [pure, Except.pure] at h; subst h; rfl
  | cons a l ih =>
    rw [List.mapM_cons] at h
    obtain ⟨b, h1, h⟩ := bind_ok_iff.mp h
    obtain ⟨bs', h2, h⟩ := bind_ok_iff.mp h
    injection h with h
    subst h
    simp [ih h2]

theorem assertLen_run (m : Nat) (p : Prog S) (env : List (AFloat S)) (w : World S) :
    (∀ y w', p.run env w = (.ok y, w') → y.length = m → (p.assertLen m).run env w = (.ok y, w')) ∧
    (∀ y w', p.run env w = (.ok y, w') → y.length ≠ m → (p.assertLen m).run env w = (.error .user, w')) ∧
    (∀ e w', p.run env w = (.error e, w') → ∃ e', (p.assertLen m).run env w = (.error e', w')) := by
  induction p generalizing env w with
  | panic =>
    refine ⟨?_, ?_, fun e w' h => ⟨e, h⟩⟩ <;> (intro y w' h; simp [Prog.run] at h)
  | ret outs =>
    simp only [Prog.run, Prog.assertLen, M.lift_apply]
    refine ⟨?_, ?_, ?_⟩
    · intro y w' h hy
      injection h with h1 h2
      rw [if_pos (by rw [← mapM_length_ok h1, hy]), Prog.run, M.lift_apply, h1, h2]
    · intro y w' h hy
      injection h with h1 h2
      rw [if_neg (by rw [← mapM_length_ok h1]; exact hy), Prog.run, M.throw_apply, h2]
    · intro e w' h
      injection h with h1 h2
      split
      · exact ⟨e, by rw [Prog.run, M.lift_apply, h1, h2]⟩
      · exact ⟨.user, by rw [Prog.run, M.throw_apply, h2]⟩
  | op o a b k ih =>
    simp only [Prog.run, Prog.assertLen, M.bind_apply, M.lift_apply]
    have herr : ∀ (e0 : Err) (w0 : World S),
        (∀ y w', ((.error e0, w0) : Res (List (AFloat S)) × World S) = (.ok y, w') → y.length = m →
          ((.error e0, w0) : Res (List (AFloat S)) × World S) = (.ok y, w')) ∧
        (∀ y w', ((.error e0, w0) : Res (List (AFloat S)) × World S) = (.ok y, w') → y.length ≠ m →
          ((.error e0, w0) : Res (List (AFloat S)) × World S) = (.error .user, w')) ∧
        (∀ e w', ((.error e0, w0) : Res (List (AFloat S)) × World S) = (.error e, w') →
          ∃ e', ((.error e0, w0) : Res (List (AFloat S)) × World S) = (.error e', w')) := by
      intro e0 w0
      refine ⟨fun y w' h => by simp at h, fun y w' h => by simp at h, fun e w' h => ⟨e, h⟩⟩
    rcases a.get env with e | x
    · exact herr e w
    simp only
    rcases Arg.getOpt env b with e | z
    · exact herr e w
    simp only
    by_cases hok : arityOk o z = true
    · simp only [hok, if_true, M.bind_apply]
      rcases AFloat.fromOp o x z w with ⟨e | r, w1⟩
      · exact herr e w1
      · exact ih _ _ _ _
    · simp only [hok]
      exact herr .unbound w

/-- C46: a function defined by `adv_fn!` reports the declared dimensions, panics (touching nothing) on an
argument of another length, and otherwise behaves like its body, except that a result of the wrong
length is turned into a panic. -/
theorem C46_adv_fn_checks_dimensions (n m : Nat) (body : List S → Prog S) (x : List (AFloat S)) (w : World S) :
    (Func.advFn n m body).n = .ok n ∧ (Func.advFn n m body).m = .ok m ∧
    (x.length ≠ n → (Func.advFn n m body).eval x w = (.error .user, w)) ∧
    (x.length = n →
      (∀ y w', (body (x.map AFloat.v)).run x w = (.ok y, w') → y.length = m → (Func.advFn n m body).eval x w = (.ok y, w')) ∧
      (∀ y w', (body (x.map AFloat.v)).run x w = (.ok y, w') → y.length ≠ m →
        (Func.advFn n m body).eval x w = (.error .user, w')) ∧
      (∀ e w', (body (x.map AFloat.v)).run x w = (.error e, w') → ∃ e', (Func.advFn n m body).eval x w = (.error e', w'))) := by
  refine ⟨by simp [Func.advFn, Func.n], by simp [Func.advFn, Func.m], ?_, ?_⟩
  · intro h
    simp [Func.advFn, Func.eval, h, Prog.run]
  · intro h
    simp only [Func.advFn, Func.eval, List.length_map, h, if_true]
    exact assertLen_run m (body (x.map AFloat.v)) x w

example : (Demo.absF.eval [AFloat.new 2 0] Demo.w0).1 = .error .user ∧
    ((Func.advFn 1 2 (fun _ => .ret [.var 0]) : Func ℚ).eval [AFloat.new 2 0] Demo.w0).1 = .error .user ∧
    ((Func.advFn 1 1 (fun _ => .ret [.var 0]) : Func ℚ).eval [AFloat.new 2 0] Demo.w0).1 = .ok [AFloat.new 2 0] := by
  decide +kernel

end Adv.Props
