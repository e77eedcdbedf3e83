import Verif.Proof.Chain
import Verif.Proof.Probe
import Verif.Props.MachineAnf

/-!
# Error bounds for the chain driver: induction over the links
-/

set_option linter.unusedSectionVars false

namespace Adv
open scoped Adv

theorem Func.flattenAll_simple_mem {S : Type} : ∀ (fs : List (Func S)), (∀ f ∈ fs, ∀ g ∈ f.flatten, ∃ n m p, g = .simple n m p) →
    ∀ g ∈ Func.flattenAll fs, ∃ n m p, g = .simple n m p
  | [], _, g, hg => by rw [Func.flattenAll] at hg; cases hg
  | f :: fs, h, g, hg => by
      rw [Func.flattenAll, List.mem_append] at hg
      rcases hg with hg | hg
      · exact h f (by simp) g hg
      · exact flattenAll_simple_mem fs (fun f' hf' => h f' (by simp [hf'])) g hg

/-- The links of a flattened chain are plain functions. -/
theorem Func.flatten_simple {S : Type} : ∀ (f : Func S), ∀ g ∈ f.flatten, ∃ n m p, g = .simple n m p
  | .simple n m p, g, hg => by
      rw [Func.flatten, List.mem_singleton] at hg
      exact ⟨n, m, p, hg⟩
  | .chain fs, g, hg => by
      rw [Func.flatten] at hg
      exact Func.flattenAll_simple_mem fs (fun f hf => Func.flatten_simple f) g hg

mutual
theorem Func.Same.flatten {S : Type} {val : S → Option ℝ} : ∀ {f : Func ℝ} {g : Func S}, f.Same val g →
    List.Forall₂ (Func.Same val) f.flatten g.flatten
  | .simple _ _ _, _, h => by
      cases h with
      | simple _ _ h => rw [Func.flatten, Func.flatten]; exact .cons (.simple _ _ h) .nil
  | .chain fs, _, h => by
      cases h with
      | chain h => rw [Func.flatten, Func.flatten]; exact Func.Sames.flatten h
theorem Func.Sames.flatten {S : Type} {val : S → Option ℝ} : ∀ {fs : List (Func ℝ)} {gs : List (Func S)}, Func.Sames val fs gs →
    List.Forall₂ (Func.Same val) (Func.flattenAll fs) (Func.flattenAll gs)
  | [], _, h => by cases h; rw [Func.flattenAll, Func.flattenAll]; exact .nil
  | f :: fs, _, h => by
      cases h with
      | cons h hs => rw [Func.flattenAll, Func.flattenAll]; exact forall₂_append h.flatten hs.flatten
end

theorem zip_ofFn {α β : Type} {n : Nat} (x : Fin n → α) (y : Fin n → β) :
    (List.ofFn x).zip (List.ofFn y) = List.ofFn fun j => (x j, y j) := by
  apply List.ext_getElem
  · simp
  · intro i h1 h2; simp

theorem ofFn_proj {α β : Type} {n : Nat} {l : List α} (h : l.length = n) (p : α → β) :
    List.ofFn (fun j : Fin n => p (l[j.val]'(by omega))) = l.map p := by
  apply List.ext_getElem
  · simp [h]
  · intro i h1 h2; simp

theorem identity_machine {n : Nat} (x dx : Fin n → ℝ) {S : Type} {val : S → Option ℝ} {A : Flt S} {u : ℝ} (x' dx' : Fin n → S)
    (hA : Machine val A u) : (chainIdentity (0, List.ofFn x, List.ofFn dx)).CloseM val (0 * u)
      (chainIdentity (0, List.ofFn x', List.ofFn dx')) := by
  refine ⟨⟨by simp [chainIdentity, DMat.identity, DMat.ofFn], by simp [chainIdentity, DMat.identity, DMat.ofFn], ?_⟩, ?_, rfl⟩
  · intro i hi j hj
    simp only [chainIdentity, DMat.identity, DMat.ofFn, List.length_ofFn] at hi hj ⊢
    by_cases h : i = j
    · simp only [if_pos h, hi, hj, and_self, if_true]
      exact ⟨1, hA.one, by show |(1 : ℝ) - 1| ≤ _; simp⟩
    · simp only [if_neg h, hi, hj, and_self, if_true]
      exact ⟨0, hA.zero, by show |(0 : ℝ) - 0| ≤ _; simp⟩
  · simp only [chainIdentity, List.length_ofFn]
    refine forall₂_getElem (by simp) fun k h1 h2 => ?_
    simp only [List.getElem_replicate]
    exact ⟨0, hA.zero, by show |(0 : ℝ) - 0| ≤ _; simp⟩

/-- The fold over the links in machine arithmetic. -/
theorem gjList_machine {w : World ℝ} (hw : w.nextId < usizeMax) : ∀ (fs : List (Func ℝ)),
    (∀ f ∈ fs, ∃ n m p, f = .simple n m p) → ∀ {n : Nat} (x dx : Fin n → ℝ),
    (Func.chain fs).Along piecewiseSmooth w (duals x 0) → ∀ {G : GenJac ℝ},
    gjList w fs (List.ofFn x) (List.ofFn dx) = .ok G → G.multiplicity = 0 → ∀ C : ℝ,
    ∃ K u₀, 0 < u₀ ∧ ∀ (S : Type) (val : S → Option ℝ) (A : Flt S) (u : ℝ) (gs : List (Func S)) (x' dx' : Fin n → S)
      (v : World S), Machine val A u → u ≤ u₀ → List.Forall₂ (Func.Same val) fs gs →
      (∀ j, WithinM val (C * u) (x j) (x' j)) → (∀ j, WithinM val (C * u) (dx j) (dx' j)) → v.nextId < usizeMax →
      ∃ G', gjList v gs (List.ofFn x') (List.ofFn dx') = .ok G' ∧ G.CloseM val (K * u) G'
  | [], _, n, x, dx, _, G, hG, _, C => by
      injection hG with hG
      subst hG
      refine ⟨0, 1, one_pos, fun S val A u gs x' dx' v hA _ hgs _ _ _ => ?_⟩
      cases hgs
      exact ⟨_, rfl, identity_machine x dx x' dx' hA⟩
  | f :: fs, hsim, n, x, dx, hs, G, hG, hm, C => by
      obtain ⟨fn, fm, p, hf⟩ := hsim f (by simp)
      have hs1 : f.Along piecewiseSmooth w (duals x 0) := by
        subst hf
        exact ⟨hs.1, hs.2.1, fun _ _ => trivial⟩
      rw [gjList] at hG
      rcases hy : f.evalD ((List.ofFn x).zip (List.ofFn dx)) with e | ys
      · rw [hy] at hG; cases hG
      rw [hy, bind_ok_eq] at hG
      rcases hg : gjList w fs (ys.map Prod.fst) (ys.map Prod.snd) with e | g
      · rw [hg] at hG; cases hG
      rw [hg, bind_ok_eq] at hG
      obtain ⟨-, i2, i3, -⟩ := gjList_ok hw fs _ _ g (by simp) hg
      rw [List.length_map] at i2
      obtain ⟨R, t, k1, k2, -, k4, -, -, -, -⟩ := gjPure_ok hw (by simp) hy i2 i3 hG
      have hgm : g.multiplicity = 0 := by have := k4.mult; omega
      -- the next links
      let x2 : Fin ys.length → ℝ := fun j => (ys[j.val]).1
      let dx2 : Fin ys.length → ℝ := fun j => (ys[j.val]).2
      have ex2 : List.ofFn x2 = ys.map Prod.fst := ofFn_proj rfl _
      have edx2 : List.ofFn dx2 = ys.map Prod.snd := ofFn_proj rfl _
      have hs2 : (Func.chain fs).Along piecewiseSmooth w (duals x2 0) := by
        have h1 : (Func.chain (f :: fs)).Along piecewiseSmooth w (duals x dx) := piecewiseSmooth_dx hs
        have h2 : f.eval (duals x dx) w = (.ok (duals x2 dx2), w) := by
          have h3 := Func.eval_new f ((List.ofFn x).zip (List.ofFn dx)) w
          rw [hy, zip_ofFn] at h3
          have e1 : (List.ofFn fun j => (x j, dx j)).map (fun p => AFloat.new p.1 p.2) = duals x dx := by
            simp [duals, List.map_ofFn, Function.comp_def]
          have e2 : ys.map (fun p => AFloat.new p.1 p.2) = duals x2 dx2 :=
            (ofFn_proj rfl (fun p : ℝ × ℝ => AFloat.new p.1 p.2)).symm
          rw [e1] at h3
          rw [h3]
          show (Except.ok _, w) = _
          rw [e2]
        subst hf
        refine piecewiseSmooth_dx (h1.2.2 (duals x2 dx2) ?_)
        have h3 := congrArg Prod.fst h2
        exact h3
      rw [← ex2, ← edx2] at hg
      obtain ⟨K1, u1, -, hu1, f1⟩ := eval_machine dx hs1 C
      obtain ⟨K2, u2, hu2, f2⟩ := gjList_machine hw fs (fun f' hf' => hsim f' (by simp [hf'])) x2 dx2 hs2 hg hgm K1
      -- this link
      rcases ht : f.tape (List.ofFn x) w with ⟨r, w'⟩
      rw [ht] at k1
      replace k1 : r = .ok t := k1
      subst k1
      have hnd : ∀ N, some g = some N → N.homogenous.ncols = t.numDeps ∧ N.inhomogenous.length = N.homogenous.nrows := by
        rintro N ⟨⟩
        refine ⟨?_, i3⟩
        have hT := (Func.tape_spec f (List.ofFn x) w hw).2
        rw [ht] at hT
        obtain ⟨_, -, hT⟩ := hT.ok_left
        obtain ⟨ys', e1, e2, e3⟩ := hT.forward_eval (Or.inl Props.zeroTangent_of_lawful) (dx := List.ofFn dx) (by simp)
        rw [hy] at e1
        injection e1 with e1
        subst e1
        have h4 := Tape.y_eq hT.wf
        rw [e3] at h4
        injection h4 with h4
        have := congrArg List.length h4
        rw [i2]
        simpa [Tape.numDeps] using this
      rw [← (generalizedJacobian_eq Sched.seq_valid f _ _ g hw hw).1] at hG
      obtain ⟨K, u3, hu3, f3⟩ := Props.C80_generalized_jacobian f hw ht hs1 [0] hnd Sched.seq_valid hG
        (by rw [hm]; exact hgm.symm) (max C K2)
      refine ⟨K, min u1 (min u2 u3), lt_min hu1 (lt_min hu2 hu3), fun S val A u gs x' dx' v hA hu hgs hx hdx hv => ?_⟩
      have hu' := le_min_iff.mp hu
      have hu'' := le_min_iff.mp hu'.2
      rcases hgs with _ | ⟨hf', hfs⟩
      rename_i f' fs'
      have q1 := f1 S val A u f' x' dx' hA hu'.1 hf' fun j => ⟨hx j, hdx j⟩
      rw [← zip_ofFn, hy, ← zip_ofFn] at q1
      obtain ⟨ys', q2, q3⟩ := q1.ok_left
      have hlen := q3.length_eq
      have eq1 := ofFn_proj hlen.symm (Prod.fst : S × S → S)
      have eq2 := ofFn_proj hlen.symm (Prod.snd : S × S → S)
      obtain ⟨g', r1, r2⟩ := f2 S val A u fs' (fun j => (ys'[j.val]'(by omega)).1) (fun j => (ys'[j.val]'(by omega)).2) v hA hu''.1 hfs
        (fun j => (List.forall₂_iff_get.mp q3 |>.2 j.val j.isLt (by omega)).1)
        (fun j => (List.forall₂_iff_get.mp q3 |>.2 j.val j.isLt (by omega)).2) hv
      rw [eq1, eq2] at r1
      have hC : ∀ a, a ≤ max C K2 → a * u ≤ max C K2 * u := fun a ha => mul_le_mul_of_nonneg_right ha hA.nonneg
      obtain ⟨G', s1, s2⟩ := f3 S val A u f' x' dx' (some g') v Sched.seq hA hu''.2 hf' (fun j => (hx j).mono (hC _ (le_max_left _ _)))
        (fun j => (hdx j).mono (hC _ (le_max_left _ _)))
        (.some (Props.GenJac.CloseM.mono hA.nonneg (le_max_right _ _) r2)) hv Sched.seq_valid
      refine ⟨G', ?_, s2⟩
      rw [gjList, q2, bind_ok_eq, r1, bind_ok_eq, ← s1]
      exact (generalizedJacobian_eq Sched.seq_valid f' _ _ g' hv hv).1.symm

end Adv
