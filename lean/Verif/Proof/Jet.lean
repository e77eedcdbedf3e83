import Verif.Proof.Run
import Verif.Spec.Jet

/-! # Elementary operations map jets to jets -/

namespace Adv
open scoped Adv

section
variable {S : Type} [Flt S]

/-- What `from_op` returned, if it returned. -/
theorem fromOp_ok {o : OpCode} {a r : AFloat S} {b : Option (AFloat S)} {w w' : World S}
    (hok : arityOk o b = true) (h : AFloat.fromOp o a b w = (.ok r, w')) :
    r.v = opVal o a b ∧ r.dv = opDval o a b := by
  rcases fromOp_cases (a := a) w hok with ⟨ctx, w1, h1⟩ | ⟨e, w1, h1⟩
  · rw [h1] at h; injection h with h _; injection h with h; subst h; exact ⟨rfl, rfl⟩
  · rw [h1] at h; injection h with h _; cases h

theorem M.bind_ok_iff {W α β : Type} {m : M W α} {k : α → M W β} {w w' : W} {b : β} :
    (m >>= k) w = (.ok b, w') ↔ ∃ a w1, m w = (.ok a, w1) ∧ k a w1 = (.ok b, w') := by
  rw [M.bind_apply]
  rcases m w with ⟨e | a, w1⟩
  · constructor
    · intro h; injection h with h _; cases h
    · rintro ⟨_, _, h, _⟩; injection h with h _; cases h
  · constructor
    · intro h; exact ⟨a, w1, rfl, h⟩
    · rintro ⟨_, _, h, h'⟩
      injection h with h1 h2
      injection h1 with h1
      subst h1 h2; exact h'
end

variable {X Y : ℝ → ℝ} {t : ℝ} {a b r : AFloat ℝ} {w w' : World ℝ}

theorem jet_const (v : ℝ) : Jet (fun _ => v) t (AFloat.ofScalar v) :=
  ⟨rfl, hasDerivAt_const t v⟩

theorem jet_add (ha : Jet X t a) (hb : Jet Y t b) (h : AFloat.add a b w = (.ok r, w')) :
    Jet (fun s => X s + Y s) t r := by
  obtain ⟨h1, h2⟩ := fromOp_ok rfl h
  refine ⟨?_, ?_⟩
  · rw [h1, ha.val, hb.val]; rfl
  · rw [h2]; exact ha.deriv.add hb.deriv

theorem jet_sub (ha : Jet X t a) (hb : Jet Y t b) (h : AFloat.sub a b w = (.ok r, w')) :
    Jet (fun s => X s - Y s) t r := by
  obtain ⟨h1, h2⟩ := fromOp_ok rfl h
  refine ⟨?_, ?_⟩
  · rw [h1, ha.val, hb.val]; rfl
  · rw [h2]; exact ha.deriv.sub hb.deriv

theorem jet_mul (ha : Jet X t a) (hb : Jet Y t b) (h : AFloat.mul a b w = (.ok r, w')) :
    Jet (fun s => X s * Y s) t r := by
  obtain ⟨h1, h2⟩ := fromOp_ok rfl h
  refine ⟨?_, ?_⟩
  · rw [h1, ha.val, hb.val]; rfl
  · rw [h2]
    have := ha.deriv.mul hb.deriv
    rw [ha.val, hb.val] at this
    exact this

theorem jet_div (ha : Jet X t a) (hb : Jet Y t b) (hb0 : b.v ≠ 0) (h : AFloat.div a b w = (.ok r, w')) :
    Jet (fun s => X s / Y s) t r := by
  obtain ⟨h1, h2⟩ := fromOp_ok rfl h
  refine ⟨?_, ?_⟩
  · rw [h1, ha.val, hb.val]; rfl
  · rw [h2]
    have := ha.deriv.div hb.deriv (by rw [hb.val]; exact hb0)
    rw [ha.val, hb.val] at this
    have e : opDval .Div a (some b) = (a.dv * b.v - a.v * b.dv) / b.v ^ 2 := by
      show (a.dv * b.v - a.v * b.dv) / b.v ^ (2 : ℤ) = _
      norm_cast
    rw [e]; exact this

theorem jet_sin (ha : Jet X t a) (h : AFloat.sin a w = (.ok r, w')) : Jet (fun s => Real.sin (X s)) t r := by
  obtain ⟨h1, h2⟩ := fromOp_ok rfl h
  refine ⟨?_, ?_⟩
  · rw [h1, ha.val]; rfl
  · rw [h2]
    have := ha.deriv.sin
    rw [ha.val, mul_comm] at this
    exact this

theorem jet_cos (ha : Jet X t a) (h : AFloat.cos a w = (.ok r, w')) : Jet (fun s => Real.cos (X s)) t r := by
  obtain ⟨h1, h2⟩ := fromOp_ok rfl h
  refine ⟨?_, ?_⟩
  · rw [h1, ha.val]; rfl
  · rw [h2]
    have := ha.deriv.cos
    rw [ha.val] at this
    have e : opDval .Cos a none = -Real.sin a.v * a.dv := by
      show -a.dv * Real.sin a.v = _; ring
    rw [e]; exact this

theorem jet_tan (ha : Jet X t a) (h0 : Real.cos a.v ≠ 0) (h : AFloat.tan a w = (.ok r, w')) :
    Jet (fun s => Real.tan (X s)) t r := by
  obtain ⟨h1, h2⟩ := fromOp_ok rfl h
  refine ⟨?_, ?_⟩
  · rw [h1, ha.val]; rfl
  · rw [h2]
    have := (Real.hasDerivAt_tan (by rw [ha.val]; exact h0)).comp t ha.deriv
    rw [ha.val] at this
    have e : opDval .Tan a none = 1 / Real.cos a.v ^ 2 * a.dv := by
      show a.dv * (1 / Real.cos a.v ^ (2 : ℤ)) = _
      rw [mul_comm]; norm_cast
    rw [e]; exact this

theorem jet_exp (ha : Jet X t a) (h : AFloat.exp a w = (.ok r, w')) : Jet (fun s => Real.exp (X s)) t r := by
  obtain ⟨h1, h2⟩ := fromOp_ok rfl h
  refine ⟨?_, ?_⟩
  · rw [h1, ha.val]; rfl
  · rw [h2]
    have := ha.deriv.exp
    rw [ha.val, mul_comm] at this
    exact this

theorem jet_ln (ha : Jet X t a) (h0 : a.v ≠ 0) (h : AFloat.ln a w = (.ok r, w')) :
    Jet (fun s => Real.log (X s)) t r := by
  obtain ⟨h1, h2⟩ := fromOp_ok rfl h
  refine ⟨?_, ?_⟩
  · rw [h1, ha.val]; rfl
  · rw [h2]
    have := ha.deriv.log (by rw [ha.val]; exact h0)
    rw [ha.val] at this
    have e : opDval .Ln a none = a.dv / a.v := by
      show a.dv * (1 / a.v) = _; ring
    rw [e]; exact this

theorem jet_asin (ha : Jet X t a) (h0 : a.v ≠ -1) (h1' : a.v ≠ 1) (h : AFloat.asin a w = (.ok r, w')) :
    Jet (fun s => Real.arcsin (X s)) t r := by
  obtain ⟨h1, h2⟩ := fromOp_ok rfl h
  refine ⟨?_, ?_⟩
  · rw [h1, ha.val]; rfl
  · rw [h2]
    have := (Real.hasDerivAt_arcsin (by rw [ha.val]; exact h0) (by rw [ha.val]; exact h1')).comp t ha.deriv
    rw [ha.val] at this
    have e : opDval .Asin a none = 1 / Real.sqrt (1 - a.v ^ 2) * a.dv := by
      show a.dv / Real.sqrt (1 - a.v ^ (2 : ℤ)) = _
      norm_cast; ring
    rw [e]; exact this

theorem jet_acos (ha : Jet X t a) (h0 : a.v ≠ -1) (h1' : a.v ≠ 1) (h : AFloat.acos a w = (.ok r, w')) :
    Jet (fun s => Real.arccos (X s)) t r := by
  obtain ⟨h1, h2⟩ := fromOp_ok rfl h
  refine ⟨?_, ?_⟩
  · rw [h1, ha.val]; rfl
  · rw [h2]
    have := (Real.hasDerivAt_arccos (by rw [ha.val]; exact h0) (by rw [ha.val]; exact h1')).comp t ha.deriv
    rw [ha.val] at this
    have e : opDval .Acos a none = -(1 / Real.sqrt (1 - a.v ^ 2)) * a.dv := by
      show -a.dv / Real.sqrt (1 - a.v ^ (2 : ℤ)) = _
      norm_cast; ring
    rw [e]; exact this

theorem jet_atan (ha : Jet X t a) (h : AFloat.atan a w = (.ok r, w')) :
    Jet (fun s => Real.arctan (X s)) t r := by
  obtain ⟨h1, h2⟩ := fromOp_ok rfl h
  refine ⟨?_, ?_⟩
  · rw [h1, ha.val]; rfl
  · rw [h2]
    have := (Real.hasDerivAt_arctan (X t)).comp t ha.deriv
    rw [ha.val] at this
    have e : opDval .Atan a none = 1 / (1 + a.v ^ 2) * a.dv := by
      show a.dv / (1 + a.v ^ (2 : ℤ)) = _
      norm_cast; ring
    rw [e]; exact this

theorem powf_dval : opDval .Powf a (some b) =
    b.v * a.v ^ (b.v - 1) * a.dv + Real.log a.v * a.v ^ b.v * b.dv := by
  show (if !(Flt.eq a.dv 0) then b.v * a.v ^ (b.v - 1) * a.dv else 0) +
    (if !(Flt.eq b.dv 0) then Real.log a.v * a.v ^ b.v * b.dv else 0) = _
  have hz : ∀ x : ℝ, (Flt.eq x 0 = true) ↔ x = 0 := fun x => LawfulFlt.eq_iff x 0
  have hz' : ∀ x : ℝ, (Flt.eq x 0 = false) ↔ x ≠ 0 := fun x => by rw [← Bool.not_eq_true, hz]
  by_cases h1 : a.dv = 0 <;> by_cases h2 : b.dv = 0 <;> simp [hz', h1, h2]

theorem jet_powf (ha : Jet X t a) (hb : Jet Y t b) (h0 : 0 < a.v) (h : AFloat.powf a b w = (.ok r, w')) :
    Jet (fun s => X s ^ Y s) t r := by
  obtain ⟨h1, h2⟩ := fromOp_ok rfl h
  refine ⟨?_, ?_⟩
  · rw [h1, ha.val, hb.val]; rfl
  · rw [h2, powf_dval]
    have := ha.deriv.rpow hb.deriv (by rw [ha.val]; exact h0)
    rw [ha.val, hb.val] at this
    convert this using 1
    ring

/-- Constant exponent. -/
theorem jet_powf_const (ha : Jet X t a) (hb : b.dv = 0) (h0 : a.v ≠ 0 ∨ 1 ≤ b.v)
    (h : AFloat.powf a b w = (.ok r, w')) : Jet (fun s => X s ^ b.v) t r := by
  obtain ⟨h1, h2⟩ := fromOp_ok rfl h
  refine ⟨?_, ?_⟩
  · rw [h1, ha.val]; rfl
  · rw [h2, powf_dval, hb]
    have := ha.deriv.rpow_const (p := b.v) (by rw [ha.val]; exact h0)
    rw [ha.val] at this
    convert this using 1
    ring

end Adv
