import Verif.MSet.Param
import Verif.MSet.Degree
import Mathlib.Analysis.Complex.RemovableSingularity

/-!
# The conformal map from the outside of the disc to the outside of the Mandelbrot set
-/

namespace Mandelbrot

namespace MSet

open Filter Topology Metric

theorem kappa_isProper : Proper Y kappa where
  isOpen := Y_open
  diff := kappa_differentiableOn
  lt := fun _ hs => kappa_lt_one hs
  mem := Or.inl rfl
  zero := kappa_zero
  only := fun _ hs h => kappa_eq_zero hs h
  deriv := by rw [kappa_hasDerivAt_zero.deriv]; exact one_ne_zero
  proper := fun _ hr => kappa_proper hr

/-- The inverse of `kappa`. -/
noncomputable def sig : ℂ → ℂ := kappa_isProper.inverse.choose

theorem sig_differentiableOn : DifferentiableOn ℂ sig (ball 0 1) := kappa_isProper.inverse.choose_spec.1

theorem sig_mem {u : ℂ} (hu : ‖u‖ < 1) : sig u ∈ Y :=
  (kappa_isProper.inverse.choose_spec.2.1 u (mem_ball_zero_iff.mpr hu)).1

theorem kappa_sig {u : ℂ} (hu : ‖u‖ < 1) : kappa (sig u) = u :=
  (kappa_isProper.inverse.choose_spec.2.1 u (mem_ball_zero_iff.mpr hu)).2

theorem sig_kappa {s : ℂ} (hs : s ∈ Y) : sig (kappa s) = s := kappa_isProper.inverse.choose_spec.2.2 s hs

theorem sig_zero : sig 0 = 0 := by
  have := sig_kappa (s := 0) (Or.inl rfl)
  rwa [kappa_zero] at this

theorem sig_ne_zero {u : ℂ} (hu : ‖u‖ < 1) (h0 : u ≠ 0) : sig u ≠ 0 := by
  intro h
  have := kappa_sig hu
  rw [h, kappa_zero] at this
  exact h0 this.symm

theorem sig_deriv : deriv sig 0 = 1 := by
  have h1 : HasDerivAt sig (deriv sig 0) 0 :=
    (sig_differentiableOn.differentiableAt (isOpen_ball.mem_nhds (mem_ball_self one_pos))).hasDerivAt
  have h2 : HasDerivAt (fun u => kappa (sig u)) (1 * deriv sig 0) 0 := by
    have hk : HasDerivAt kappa 1 (sig 0) := by rw [sig_zero]; exact kappa_hasDerivAt_zero
    exact HasDerivAt.comp (0 : ℂ) hk h1
  have h3 : (fun u => kappa (sig u)) =ᶠ[𝓝 0] id := by
    filter_upwards [isOpen_ball.mem_nhds (mem_ball_self (x := (0 : ℂ)) one_pos)] with u hu
    exact kappa_sig (mem_ball_zero_iff.mp hu)
  have h4 := h3.deriv_eq
  rw [h2.deriv, deriv_id, one_mul] at h4
  exact h4

/-- `u` times the exterior map at `1/u`. -/
noncomputable def hfun (u : ℂ) : ℂ := (dslope sig 0 u)⁻¹

theorem hfun_zero : hfun 0 = 1 := by rw [hfun, dslope_same, sig_deriv, inv_one]

theorem hfun_div {u : ℂ} (h0 : u ≠ 0) : hfun u / u = (sig u)⁻¹ := by
  rw [hfun, dslope_of_ne _ h0, slope_def_field, sig_zero, sub_zero, sub_zero, inv_div]
  field_simp

theorem hfun_differentiableOn : DifferentiableOn ℂ hfun (ball 0 1) := by
  have h1 : DifferentiableOn ℂ (dslope sig 0) (ball 0 1) :=
    (Complex.differentiableOn_dslope (isOpen_ball.mem_nhds (mem_ball_self one_pos))).mpr sig_differentiableOn
  refine h1.inv fun u hu => ?_
  rcases eq_or_ne u 0 with rfl | h0
  · rw [dslope_same, sig_deriv]
    exact one_ne_zero
  · rw [dslope_of_ne _ h0, slope_def_field, sig_zero, sub_zero, sub_zero]
    exact div_ne_zero (sig_ne_zero (mem_ball_zero_iff.mp hu) h0) h0

/-- The exterior map takes its values outside of the set. -/
theorem ext_pos {u : ℂ} (hu : ‖u‖ < 1) (h0 : u ≠ 0) : 0 < G (hfun u / u) (hfun u / u) := by
  rw [hfun_div h0]
  exact (sig_mem hu).resolve_left (sig_ne_zero hu h0)

theorem uM_ext {u : ℂ} (hu : ‖u‖ < 1) (h0 : u ≠ 0) : uM (hfun u / u) = u := by
  rw [hfun_div h0, ← kappa_of_ne (sig_ne_zero hu h0), kappa_sig hu]

theorem uM_lt_one {c : ℂ} (h : 0 < G c c) : ‖uM c‖ < 1 := by
  rw [uM_norm h]
  exact Real.exp_lt_one_iff.mpr (by linarith)

theorem ext_uM {c : ℂ} (h : 0 < G c c) : hfun (uM c) / uM c = c := by
  rw [hfun_div (uM_spec h).2.1]
  have hc : c ≠ 0 := by
    rintro rfl
    rw [G_zero] at h
    exact lt_irrefl _ h
  have h1 : c⁻¹ ∈ Y := Or.inr (by rw [inv_inv]; exact h)
  have h2 := sig_kappa h1
  rw [kappa_of_ne (inv_ne_zero hc), inv_inv] at h2
  rw [h2, inv_inv]

/-- The points outside of the set are the values of the exterior map. -/
theorem not_mem_iff (c : ℂ) : c ∉ Spec.mandelbrotSet ↔ ∃ u : ℂ, ‖u‖ < 1 ∧ u ≠ 0 ∧ hfun u / u = c := by
  rw [mem_iff]
  constructor
  · intro h
    have hp : 0 < G c c := lt_of_le_of_ne (G_nonneg c c) (Ne.symm h)
    exact ⟨uM c, uM_lt_one hp, (uM_spec hp).2.1, ext_uM hp⟩
  · rintro ⟨u, hu, h0, rfl⟩
    exact (ext_pos hu h0).ne'

theorem ext_inj {u v : ℂ} (hu : ‖u‖ < 1) (h0 : u ≠ 0) (hv : ‖v‖ < 1) (h0' : v ≠ 0)
    (h : hfun u / u = hfun v / v) : u = v := by
  rw [← uM_ext hu h0, ← uM_ext hv h0', h]

theorem mandelbrotSet_bounded {c : ℂ} (h : c ∈ Spec.mandelbrotSet) : ‖c‖ ≤ 40 := by
  by_contra hlt
  push Not at hlt
  rw [mem_iff] at h
  have := (uM_large hlt).1
  linarith

theorem hfun_le {u : ℂ} (hu : ‖u‖ < 1) : ‖hfun u‖ ≤ 40 := by
  rcases eq_or_ne u 0 with rfl | h0
  · rw [hfun_zero, norm_one]
    norm_num
  · have he : hfun u = u * (hfun u / u) := by field_simp
    rcases le_or_gt ‖hfun u / u‖ 40 with h | h
    · rw [he, norm_mul]
      nlinarith [norm_nonneg u, norm_nonneg (hfun u / u)]
    · obtain ⟨_, _, _, h1⟩ := uM_large h
      rw [uM_ext hu h0, ← he] at h1
      have h2 : 8 / ‖hfun u / u‖ ≤ 8 / 40 := by gcongr
      have h3 := norm_sub_norm_le (hfun u) 1
      rw [norm_one] at h3
      linarith

/-- The value of the exterior map and its iterates, in terms of the Böttcher function. -/
theorem ext_orb {u : ℂ} (hu : ‖u‖ < 1) (h0 : u ≠ 0) (m : ℕ) :
    Dom (hfun u / u) (u ^ 2 ^ m) ∧
      u ^ 2 ^ m * orb (hfun u / u) (hfun u / u) m = chi (hfun u / u, u ^ 2 ^ m) := by
  obtain ⟨h1, h2, h3⟩ := uM_spec (ext_pos hu h0)
  rw [uM_ext hu h0] at h1 h2 h3
  obtain ⟨h4, h5⟩ := chi_orb h1 h2 m
  rw [h3] at h5
  refine ⟨h4, ?_⟩
  rw [h5]
  field_simp

end MSet

end Mandelbrot
