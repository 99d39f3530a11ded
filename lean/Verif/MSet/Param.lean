import Verif.MSet.Theta
import Mathlib.Analysis.SpecialFunctions.Pow.Deriv

/-!
# The Böttcher coordinate of the complement of the Mandelbrot set

For `c` outside the set, `uM c` is the inverse of the coordinate of the critical value `c` in the plane of
`z ↦ z^2 + c`.
-/

namespace Mandelbrot

namespace MSet

open Filter Topology Metric

theorem G0_pos {c : ℂ} (h : 0 < G c c) : 0 < G c 0 := by
  rw [G_critical] at h
  linarith

theorem G0_lt {c : ℂ} (h : 0 < G c c) : G c 0 < G c c := by
  have := G0_pos h
  rw [G_critical]
  linarith

/-- The inverse of the coordinate of `c`. -/
noncomputable def uM (c : ℂ) : ℂ := by
  classical
  exact if h : ∃ u, Dom c u ∧ u ≠ 0 ∧ chi (c, u) / u = c then h.choose else 0

theorem uM_spec {c : ℂ} (h : 0 < G c c) : Dom c (uM c) ∧ uM c ≠ 0 ∧ chi (c, uM c) / uM c = c := by
  classical
  have hex := chi_surj (G0_lt h)
  rw [uM, dif_pos hex]
  exact hex.choose_spec

theorem uM_unique {c u : ℂ} (h : 0 < G c c) (hd : Dom c u) (h0 : u ≠ 0) (he : chi (c, u) / u = c) : uM c = u := by
  obtain ⟨h1, h2, h3⟩ := uM_spec h
  exact chi_inj h1 hd h2 h0 (by rw [h3, he])

theorem uM_norm {c : ℂ} (h : 0 < G c c) : ‖uM c‖ = Real.exp (-G c c) := by
  obtain ⟨h1, h2, h3⟩ := uM_spec h
  have := chi_rate h1 h2
  rw [h3] at this
  rw [this, neg_neg, Real.exp_log (norm_pos_iff.mpr h2)]

theorem uM_pow {c : ℂ} (h : 0 < G c c) {n : ℕ} (hn : R c < ‖orb c c n‖) : uM c ^ 2 ^ n = theta c (orb c c n) := by
  obtain ⟨h1, h2, h3⟩ := uM_spec h
  obtain ⟨h4, h5⟩ := chi_orb h1 h2 n
  rw [h3] at h5
  exact chi_inj h4 (theta_dom hn) (pow_ne_zero _ h2) (theta_ne_zero hn) (by rw [← h5, chi_theta hn])

theorem orb_param_differentiable (n : ℕ) : Differentiable ℂ fun c => orb c c n := by
  induction n with
  | zero => exact differentiable_id
  | succ n ih => exact (ih.pow 2).add differentiable_id

theorem far_open (n : ℕ) : IsOpen {c : ℂ | R c < ‖orb c c n‖} := by
  have := (orb_param_differentiable n).continuous
  refine isOpen_lt ?_ (by fun_prop)
  unfold R
  fun_prop

theorem theta_differentiable (n : ℕ) :
    DifferentiableOn ℂ (fun c => theta c (orb c c n)) {c : ℂ | R c < ‖orb c c n‖} := by
  have hS : DifferentiableOn ℂ (fun c => S c (orb c c n)) {c : ℂ | R c < ‖orb c c n‖} := by
    refine Complex.differentiableOn_tsum_of_summable_norm (summable_bound (3 / 128)) (fun j c hc => ?_) (far_open n)
      fun j c hc => lterm_bound hc j
    have hc : R c < ‖orb c c n‖ := hc
    have h1 := far_orb hc j
    apply DifferentiableAt.differentiableWithinAt
    unfold lterm
    have e : (fun c : ℂ => orb c (orb c c n) j) = fun c => orb c c (n + j) := by
      ext c
      rw [orb_add]
    have h2 : DifferentiableAt ℂ (fun c : ℂ => orb c (orb c c n) j) c := by
      rw [e]
      exact orb_param_differentiable _ c
    have h3 : DifferentiableAt ℂ (fun c : ℂ => 1 + c / orb c (orb c c n) j ^ 2) c :=
      (differentiableAt_const _).add (differentiableAt_id.div (h2.pow 2) (pow_ne_zero _ (far_ne_zero h1)))
    exact DifferentiableAt.div_const (h3.clog (far_slit h1)) _
  intro c hc
  have hc' : R c < ‖orb c c n‖ := hc
  unfold theta
  exact ((orb_param_differentiable n c).inv (far_ne_zero hc')).differentiableWithinAt.mul ((hS c hc).neg.cexp)

theorem escaping_open : IsOpen {c : ℂ | 0 < G c c} :=
  isOpen_lt continuous_const (G_continuous.comp (continuous_id.prodMk continuous_id))

theorem dom_open : IsOpen {p : ℂ × ℂ | Dom p.1 p.2} := by
  refine isOpen_lt (by fun_prop) (Real.continuous_exp.comp (Continuous.neg ?_))
  exact G_continuous.comp (continuous_fst.prodMk continuous_const)

theorem orb_ne_zero {c : ℂ} (h : 0 < G c c) (n : ℕ) : orb c c n ≠ 0 := by
  intro h0
  have h1 := G_orb c c n
  rw [h0, G_critical] at h1
  have h2 := G0_pos h
  have h3 : (1 : ℝ) ≤ 2 ^ n := one_le_pow₀ (by norm_num)
  nlinarith

/-- The coordinate is analytic outside the set. -/
theorem uM_differentiableAt {c₀ : ℂ} (h : 0 < G c₀ c₀) : DifferentiableAt ℂ uM c₀ := by
  obtain ⟨n, hn⟩ := exists_far h
  obtain ⟨s1, s2, s3⟩ := uM_spec h
  set T : ℂ → ℂ := fun c => theta c (orb c c n) with hT
  have hn' : c₀ ∈ {c : ℂ | R c < ‖orb c c n‖} := hn
  have hTd : DifferentiableAt ℂ T c₀ := (theta_differentiable n).differentiableAt ((far_open n).mem_nhds hn')
  have hT0 : T c₀ ≠ 0 := theta_ne_zero hn
  set v : ℂ → ℂ := fun c => uM c₀ * (T c / T c₀) ^ (((2 ^ n : ℕ) : ℂ)⁻¹) with hv
  have hvd : DifferentiableAt ℂ v c₀ := by
    refine DifferentiableAt.const_mul ?_ _
    refine DifferentiableAt.cpow_const (hTd.div_const _) ?_
    rw [div_self hT0]
    exact Complex.one_mem_slitPlane
  have hv0 : v c₀ = uM c₀ := by
    rw [hv]
    simp only
    rw [div_self hT0, Complex.one_cpow, mul_one]
  have hvp : ∀ c, v c ^ 2 ^ n = T c := by
    intro c
    rw [hv]
    simp only
    rw [mul_pow, uM_pow h hn, Complex.cpow_nat_inv_pow _ (pow_ne_zero _ two_ne_zero)]
    exact mul_div_cancel₀ _ hT0
  have hvc : ContinuousAt (fun c => (c, v c)) c₀ := continuousAt_id.prodMk hvd.continuousAt
  have e1 : ∀ᶠ c in 𝓝 c₀, Dom c (v c) :=
    hvc.eventually (dom_open.mem_nhds (show Dom c₀ (v c₀) by rw [hv0]; exact s1))
  have e2 : ∀ᶠ c in 𝓝 c₀, v c ≠ 0 := hvd.continuousAt.eventually_ne (by rw [hv0]; exact s2)
  have e3 : ∀ᶠ c in 𝓝 c₀, 0 < G c c := escaping_open.mem_nhds h
  have e4 : ∀ᶠ c in 𝓝 c₀, R c < ‖orb c c n‖ := (far_open n).mem_nhds hn'
  set d : ℂ → ℂ := fun c => chi (c, v c) / v c with hd
  have hdc : ContinuousAt d c₀ := by
    refine ContinuousAt.div ?_ hvd.continuousAt (by rw [hv0]; exact s2)
    refine ContinuousAt.comp' (f := fun c => (c, v c)) (g := chi) ?_ hvc
    rw [hv0]
    exact chi_continuousAt s1
  have hd0 : d c₀ = c₀ := by
    rw [hd]
    simp only
    rw [hv0, s3]
  have e5 : ∀ᶠ c in 𝓝 c₀, ∀ j < n, orb c (d c) j ≠ -orb c c j := by
    refine (eventually_all_finite (Set.finite_lt_nat n)).mpr fun j _ => ?_
    have h1 : ContinuousAt (fun c => orb c (d c) j + orb c c j) c₀ := by
      refine ContinuousAt.add ?_ (orb_param_differentiable j).continuous.continuousAt
      exact ContinuousAt.comp' (f := fun c => (c, d c)) (g := fun p : ℂ × ℂ => orb p.1 p.2 j)
        (orb_continuous j).continuousAt (continuousAt_id.prodMk hdc)
    have h2 := h1.eventually_ne (y := 0) (by
      rw [hd0, ← two_mul]
      exact mul_ne_zero two_ne_zero (orb_ne_zero h j))
    filter_upwards [h2] with c hc hc'
    exact hc (by rw [hc']; ring)
  have main : uM =ᶠ[𝓝 c₀] v := by
    filter_upwards [e1, e2, e3, e4, e5] with c a1 a2 a3 a4 a5
    refine uM_unique a3 a1 a2 ?_
    have top : orb c (d c) n = orb c c n := by
      rw [hd]
      simp only
      rw [(chi_orb a1 a2 n).2, hvp, hT]
      exact chi_theta a4
    have down : ∀ j ≤ n, orb c (d c) j = orb c c j → d c = c := by
      intro j
      induction j with
      | zero => intro _ e; exact e
      | succ j ih =>
        intro hj e
        rw [orb, orb, add_left_inj] at e
        rcases sq_eq_sq_iff_eq_or_eq_neg.mp e with e | e
        · exact ih (by omega) e
        · exact absurd e (a5 j (by omega))
    exact down n le_rfl top
  exact main.differentiableAt_iff.mpr hvd

/-- Far away the coordinate is close to `c`. -/
theorem uM_large {c : ℂ} (h : 40 < ‖c‖) :
    0 < G c c ∧ ‖uM c‖ ≤ 2 / ‖c‖ ∧ (c, uM c) ∈ N0 ∧ ‖uM c * c - 1‖ ≤ 8 / ‖c‖ := by
  set x := ‖c‖ with hx
  have h1 : x ^ 2 - x ≤ ‖c ^ 2 + c‖ := by
    have := norm_sub_le (c ^ 2 + c) c
    rw [add_sub_cancel_right, norm_pow] at this
    linarith
  have h2 : x ^ 4 / 2 ≤ ‖orb c c 2‖ := by
    have h3 := norm_sub_le ((c ^ 2 + c) ^ 2 + c) c
    rw [add_sub_cancel_right, norm_pow] at h3
    have h4 : (x ^ 2 - x) ^ 2 ≤ ‖c ^ 2 + c‖ ^ 2 := by
      have : 0 ≤ x ^ 2 - x := by nlinarith
      gcongr
    have h5 : x ^ 4 / 2 + x ≤ (x ^ 2 - x) ^ 2 := by
      have a : x * (39 / 40 * x) ≤ x ^ 2 - x := by nlinarith
      have b : (x * (39 / 40 * x)) ^ 2 ≤ (x ^ 2 - x) ^ 2 := by gcongr
      have e : (x * (39 / 40 * x)) ^ 2 = (39 / 40) ^ 2 * x ^ 4 := by ring
      have f : x ≤ x ^ 4 / 4 := by
        have : 40 ^ 3 ≤ x ^ 3 := by gcongr
        nlinarith
      have p : 0 ≤ x ^ 4 := by positivity
      rw [e] at b
      nlinarith
    change x ^ 4 / 2 ≤ ‖(c ^ 2 + c) ^ 2 + c‖
    linarith
  have hf : R c < ‖orb c c 2‖ := by
    refine lt_of_lt_of_le ?_ h2
    unfold R
    rw [← hx]
    have a : 1 + x ≤ 2 * x := by linarith
    have b : (1 + x) ^ 2 ≤ (2 * x) ^ 2 := by gcongr
    have e : x ^ 4 = x ^ 2 * x ^ 2 := by ring
    have f : 40 ^ 2 ≤ x ^ 2 := by gcongr
    nlinarith
  have hG : 0 < G c c := by
    have a := far_G hf
    rw [G_orb] at a
    have b := G_nonneg c 0
    norm_num at a
    linarith
  obtain ⟨s1, s2, s3⟩ := uM_spec hG
  have hu : ‖uM c‖ ≤ 2 / x := by
    have a := uM_pow hG hf
    have b := theta_norm hf
    rw [← a, norm_pow] at b
    have d : 8 / 7 / ‖orb c c 2‖ ≤ (2 / x) ^ 2 ^ 2 := by
      rw [div_le_iff₀ (by linarith [R_ge c])]
      have hx0 : x ≠ 0 := by linarith
      have e : (2 / x) ^ 2 ^ 2 * (x ^ 4 / 2) = 8 := by
        rw [show (2 : ℕ) ^ 2 = 4 by norm_num, div_pow]
        field_simp
        norm_num
      have f : (2 / x) ^ 2 ^ 2 * (x ^ 4 / 2) ≤ (2 / x) ^ 2 ^ 2 * ‖orb c c 2‖ := by gcongr
      linarith
    exact (pow_le_pow_iff_left₀ (norm_nonneg _) (by positivity) (by norm_num)).mp (b.trans d)
  have hq : ‖c‖ * ‖uM c‖ ^ 2 ≤ 4 / x := by
    have a : ‖uM c‖ ^ 2 ≤ (2 / x) ^ 2 := by gcongr
    have e : x * (2 / x) ^ 2 = 4 / x := by
      field_simp
      norm_num
    rw [← e, ← hx]
    gcongr
  have hN : (c, uM c) ∈ N0 := by
    refine ⟨s1.lt_one, lt_of_le_of_lt hq ?_⟩
    rw [div_lt_iff₀ (by linarith)]
    linarith
  refine ⟨hG, hu, hN, ?_⟩
  have a := chi_quad s1 hN
  rw [div_eq_iff s2] at s3
  rw [mul_comm, ← s3]
  have e : 2 * (4 / x) = 8 / x := by ring
  linarith

/-- The coordinate near infinity in terms of `1/c`. -/
noncomputable def kappa (s : ℂ) : ℂ := if s = 0 then 0 else uM s⁻¹

/-- The inverses of the points outside the set, and 0. -/
def Y : Set ℂ := {s | s = 0 ∨ 0 < G s⁻¹ s⁻¹}

theorem kappa_of_ne {s : ℂ} (h : s ≠ 0) : kappa s = uM s⁻¹ := if_neg h

theorem kappa_zero : kappa 0 = 0 := if_pos rfl

theorem large_of_small {s : ℂ} (h0 : s ≠ 0) (h : ‖s‖ < 1 / 40) : 40 < ‖s⁻¹‖ := by
  rw [norm_inv, lt_inv_comm₀ (by norm_num) (norm_pos_iff.mpr h0)]
  linarith

theorem kappa_hasDerivAt_zero : HasDerivAt kappa 1 0 := by
  rw [hasDerivAt_iff_tendsto_slope, tendsto_iff_norm_sub_tendsto_zero]
  have hb : ∀ᶠ s : ℂ in 𝓝[≠] 0, ‖slope kappa 0 s - 1‖ ≤ 8 * ‖s‖ := by
    have h1 : ∀ᶠ s : ℂ in 𝓝[≠] 0, ‖s‖ < 1 / 40 := by
      have : ∀ᶠ s : ℂ in 𝓝 0, ‖s‖ < 1 / 40 :=
        continuous_norm.continuousAt.eventually_lt_const (by simp)
      exact this.filter_mono nhdsWithin_le_nhds
    filter_upwards [h1, self_mem_nhdsWithin] with s hs h0
    have h0 : s ≠ 0 := h0
    have h2 := (uM_large (large_of_small h0 hs)).2.2.2
    rw [slope_def_field, kappa_zero, sub_zero, sub_zero, kappa_of_ne h0, div_eq_mul_inv]
    rwa [norm_inv, div_inv_eq_mul] at h2
  refine squeeze_zero' (Eventually.of_forall fun _ => norm_nonneg _) hb ?_
  have : Tendsto (fun s : ℂ => 8 * ‖s‖) (𝓝 0) (𝓝 (8 * ‖(0 : ℂ)‖)) := (continuous_const.mul continuous_norm).tendsto 0
  rw [norm_zero, mul_zero] at this
  exact this.mono_left nhdsWithin_le_nhds

theorem Y_nhds_zero : Y ∈ 𝓝 (0 : ℂ) := by
  refine Filter.mem_of_superset (ball_mem_nhds (0 : ℂ) (show (0 : ℝ) < 1 / 40 by norm_num)) fun s hs => ?_
  rw [mem_ball_zero_iff] at hs
  rcases eq_or_ne s 0 with h0 | h0
  · exact Or.inl h0
  · exact Or.inr (uM_large (large_of_small h0 hs)).1

theorem Y_open : IsOpen Y := by
  rw [isOpen_iff_mem_nhds]
  intro s hs
  rcases eq_or_ne s 0 with rfl | h0
  · exact Y_nhds_zero
  · have h1 : 0 < G s⁻¹ s⁻¹ := hs.resolve_left h0
    have h2 : ContinuousAt (fun s : ℂ => s⁻¹) s := continuousAt_inv₀ h0
    filter_upwards [h2.eventually (escaping_open.mem_nhds h1)] with t ht
    exact Or.inr ht

theorem kappa_differentiableOn : DifferentiableOn ℂ kappa Y := by
  intro s hs
  apply DifferentiableAt.differentiableWithinAt
  rcases eq_or_ne s 0 with rfl | h0
  · exact kappa_hasDerivAt_zero.differentiableAt
  · have h1 : 0 < G s⁻¹ s⁻¹ := hs.resolve_left h0
    have h2 : DifferentiableAt ℂ (fun s : ℂ => uM s⁻¹) s :=
      DifferentiableAt.comp s (uM_differentiableAt h1) (differentiableAt_inv h0)
    refine (Filter.EventuallyEq.differentiableAt_iff ?_).mpr h2
    filter_upwards [eventually_ne_nhds h0] with t ht
    exact kappa_of_ne ht

theorem kappa_lt_one {s : ℂ} (hs : s ∈ Y) : ‖kappa s‖ < 1 := by
  rcases eq_or_ne s 0 with rfl | h0
  · rw [kappa_zero, norm_zero]
    exact one_pos
  · rw [kappa_of_ne h0]
    exact (uM_spec (hs.resolve_left h0)).1.lt_one

theorem kappa_eq_zero {s : ℂ} (hs : s ∈ Y) (h : kappa s = 0) : s = 0 := by
  by_contra h0
  rw [kappa_of_ne h0] at h
  exact (uM_spec (hs.resolve_left h0)).2.1 h

theorem G_zero : G 0 0 = 0 := by
  have := G_critical 0
  linarith

/-- Preimages of compact parts of the disc are compact. -/
theorem kappa_proper {r : ℝ} (hr : r < 1) : IsCompact {s | s ∈ Y ∧ ‖kappa s‖ ≤ r} := by
  rcases lt_or_ge r 0 with hneg | hpos
  · have : {s | s ∈ Y ∧ ‖kappa s‖ ≤ r} = ∅ := by
      ext s
      simp only [Set.mem_ofPred_eq, Set.mem_empty_iff_false, iff_false, not_and, not_le]
      intro _
      exact lt_of_lt_of_le hneg (norm_nonneg _)
    rw [this]
    exact isCompact_empty
  have hmem : ∀ s : ℂ, s ≠ 0 → (s ∈ Y ∧ ‖kappa s‖ ≤ r ↔ Real.exp (-G s⁻¹ s⁻¹) ≤ r) := by
    intro s h0
    constructor
    · rintro ⟨h1, h2⟩
      rwa [kappa_of_ne h0, uM_norm (h1.resolve_left h0)] at h2
    · intro h
      have hp : 0 < G s⁻¹ s⁻¹ := by
        by_contra hle
        have : G s⁻¹ s⁻¹ = 0 := le_antisymm (not_lt.mp hle) (G_nonneg _ _)
        rw [this, neg_zero, Real.exp_zero] at h
        linarith
      exact ⟨Or.inr hp, by rwa [kappa_of_ne h0, uM_norm hp]⟩
  have hG : Continuous fun c : ℂ => Real.exp (-G c c) :=
    Real.continuous_exp.comp (G_continuous.comp (continuous_id.prodMk continuous_id)).neg
  refine Metric.isCompact_of_isClosed_isBounded ?_ ?_
  · rw [← isOpen_compl_iff, isOpen_iff_mem_nhds]
    intro s hs
    have h0 : s ≠ 0 := by
      rintro rfl
      exact hs ⟨Or.inl rfl, by rw [kappa_zero, norm_zero]; exact hpos⟩
    have h1 : r < Real.exp (-G s⁻¹ s⁻¹) := by
      rw [← not_le, ← hmem s h0]
      exact hs
    have h2 : ContinuousAt (fun s : ℂ => Real.exp (-G s⁻¹ s⁻¹)) s :=
      ContinuousAt.comp' (f := fun s : ℂ => s⁻¹) (g := fun c : ℂ => Real.exp (-G c c)) hG.continuousAt
        (continuousAt_inv₀ h0)
    filter_upwards [h2.eventually_const_lt h1, eventually_ne_nhds h0] with t ht ht0
    rw [Set.mem_compl_iff, Set.mem_ofPred_eq, hmem t ht0, not_le]
    exact ht
  · have h1 : ∀ᶠ c : ℂ in 𝓝 0, r < Real.exp (-G c c) := by
      refine hG.continuousAt.eventually_const_lt ?_
      simp only
      rw [G_zero, neg_zero, Real.exp_zero]
      exact hr
    obtain ⟨ε, hε, hb⟩ := Metric.eventually_nhds_iff.mp h1
    rw [Metric.isBounded_iff_subset_closedBall 0]
    refine ⟨ε⁻¹, fun s hs => ?_⟩
    rw [mem_closedBall_zero_iff]
    rcases eq_or_ne s 0 with rfl | h0
    · rw [norm_zero]
      positivity
    · by_contra hlt
      rw [not_le] at hlt
      have h2 : dist s⁻¹ 0 < ε := by
        rw [dist_zero_right, norm_inv]
        exact inv_lt_of_inv_lt₀ hε hlt
      have h3 := hb h2
      have h4 := (hmem s h0).mp hs
      linarith

end MSet

end Mandelbrot
