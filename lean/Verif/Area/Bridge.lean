import Verif.Area.Lemmas
import Verif.Spec.Bottcher
import Verif.Series.Bridge

/-!
# From power series to the sequences of the specification
-/

set_option linter.unusedSectionVars false

namespace Mandelbrot

open PowerSeries

variable {K : Type} [Field K]

theorem seqOf_mul (F G : K⟦X⟧) : seqOf (F * G) = Spec.prod (seqOf F) (seqOf G) :=
  funext fun k => coeff_mul_seq F G k

theorem seqOf_Q (F : K⟦X⟧) (k : ℕ) : seqOf (Bottcher.Q F k) = Spec.mandelQ (seqOf F) k := by
  induction k with
  | zero => rfl
  | succ k ih =>
    ext j
    rw [Bottcher.Q, seqOf_add, seqOf_shift, pow_two, seqOf_mul, ih]
    rfl

theorem seqOf_two_mul (F : K⟦X⟧) (j : ℕ) : seqOf (2 * F) j = 2 * seqOf F j := by
  rw [two_mul, two_mul, seqOf_add]

theorem seqOf_dQ (F D : K⟦X⟧) (k : ℕ) :
    seqOf (Bottcher.dQ F D k) = Spec.dmandelQ (seqOf F) (seqOf (F * D)) k := by
  induction k with
  | zero => rfl
  | succ k ih =>
    ext j
    rw [Bottcher.dQ, seqOf_add, seqOf_shift, mul_assoc, seqOf_two_mul, seqOf_mul (Bottcher.Q F k), ih, seqOf_Q]
    rfl

theorem seqOf_mk (f : ℕ → K) : seqOf (PowerSeries.mk f) = f := by
  ext j; simp [seqOf]

theorem seqOf_C_mul (a : K) (F : K⟦X⟧) (j : ℕ) : seqOf (C a * F) j = a * seqOf F j := by
  simp [seqOf]

/-- The model-level notion of a solution and the specification agree. -/
theorem solves_iff_isBottcher [CharZero K] [Ldexp K] [Ser.LawfulLdexp K] [DecidableEq K] {G : K⟦X⟧} (hG : constantCoeff G = 0) (k : ℕ) :
    Bottcher.Solves k G ↔ Spec.IsBottcher k (seqOf G) := by
  rw [Bottcher.solves_iff hG]
  constructor
  · intro h
    refine ⟨by rw [seqOf, coeff_zero_eq_constantCoeff_apply]; exact hG, fun f hf j hj => ?_⟩
    rw [← seqOf_mk f] at hf
    have h1 := agree_of_isExp hG hf
    have h2 := (Bottcher.Q_agree h1 k).trans h
    have h3 := h2 j hj
    rw [← seqOf_one, ← seqOf_mk f, ← seqOf_Q]
    exact h3
  · intro h j hj
    have h1 := h.2 (seqOf (E G)) (isExp_of_agree hG Agree.rfl') j hj
    rw [← seqOf_Q, ← seqOf_one] at h1
    exact h1

end Mandelbrot
