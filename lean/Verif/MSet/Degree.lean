import Mathlib.Analysis.Complex.OpenMapping
import Mathlib.Analysis.Calculus.InverseFunctionTheorem.Deriv
import Mathlib.Analysis.SpecialFunctions.Complex.Analytic
import Mathlib.RingTheory.RootsOfUnity.Complex
import Mathlib.Analysis.Analytic.IsolatedZeros

/-!
# Proper analytic maps onto the disc with one simple zero are bijective
-/

namespace Mandelbrot

namespace MSet

open Filter Topology Metric

/-- Near a critical point, an analytic function takes its values at least twice. -/
theorem two_preimages {f : ℂ → ℂ} {z₀ : ℂ} (hf : AnalyticAt ℂ f z₀) (hd : deriv f z₀ = 0)
    (hc : ¬∀ᶠ z in 𝓝 z₀, f z = f z₀) {W : Set ℂ} (hW : W ∈ 𝓝 z₀) :
    ∀ᶠ a in 𝓝 (f z₀), a ≠ f z₀ → ∃ s ∈ W, ∃ t ∈ W, s ≠ t ∧ f s = a ∧ f t = a := by
  have hf' : AnalyticAt ℂ (fun z => f z - f z₀) z₀ := hf.sub analyticAt_const
  obtain ⟨n, g, hg, hg0, he⟩ := hf'.exists_eventuallyEq_pow_smul_nonzero_iff.mpr (by
    intro h
    refine hc (h.mono fun z hz => ?_)
    exact sub_eq_zero.mp hz)
  have hn0 : n ≠ 0 := by
    rintro rfl
    have := he.self_of_nhds
    rw [sub_self, pow_zero, one_smul] at this
    exact hg0 this.symm
  have hn1 : n ≠ 1 := by
    rintro rfl
    have h1 : HasDerivAt (fun z => (z - z₀) ^ 1 • g z) (g z₀) z₀ := by
      have h2 := ((hasDerivAt_id z₀).sub_const z₀).mul hg.differentiableAt.hasDerivAt
      simp only [id_eq, sub_self, zero_mul, add_zero, one_mul] at h2
      simpa only [pow_one, smul_eq_mul] using! h2
    have h2 : HasDerivAt (fun z => f z - f z₀) (g z₀) z₀ := h1.congr_of_eventuallyEq he
    have h3 := h2.deriv
    rw [deriv_sub_const, hd] at h3
    exact hg0 h3.symm
  set q : ℂ → ℂ := fun z => g z₀ ^ ((n : ℂ)⁻¹) * (g z / g z₀) ^ ((n : ℂ)⁻¹) with hq
  have hqa : AnalyticAt ℂ q z₀ := by
    have h1 : AnalyticAt ℂ (fun z => g z / g z₀) z₀ := hg.div analyticAt_const hg0
    have h2 : g z₀ / g z₀ ∈ Complex.slitPlane := by
      rw [div_self hg0]
      exact Complex.one_mem_slitPlane
    exact analyticAt_const.mul (AnalyticAt.cpow h1 analyticAt_const h2)
  have hqn : ∀ z, q z ^ n = g z := by
    intro z
    rw [hq]
    simp only
    rw [mul_pow, Complex.cpow_nat_inv_pow _ hn0, Complex.cpow_nat_inv_pow _ hn0, mul_div_cancel₀ _ hg0]
  have hq0 : q z₀ ≠ 0 := by
    intro h
    have := hqn z₀
    rw [h, zero_pow hn0] at this
    exact hg0 this.symm
  set p : ℂ → ℂ := fun z => (z - z₀) * q z with hp
  have hpa : AnalyticAt ℂ p z₀ := (analyticAt_id.sub analyticAt_const).mul hqa
  have hpd : HasDerivAt p (q z₀) z₀ := by
    have h2 := ((hasDerivAt_id z₀).sub_const z₀).mul hqa.differentiableAt.hasDerivAt
    simp only [id_eq, sub_self, zero_mul, add_zero, one_mul] at h2
    exact h2
  have hps : HasStrictDerivAt p (q z₀) z₀ := by
    have := hpa.hasStrictDerivAt
    rwa [hpd.deriv] at this
  have hp0 : p z₀ = 0 := by rw [hp]; simp
  have hmap := hps.map_nhds_eq hq0
  rw [hp0] at hmap
  have himg : p '' (W ∩ {z | f z - f z₀ = p z ^ n}) ∈ 𝓝 (0 : ℂ) := by
    rw [← hmap]
    refine image_mem_map (inter_mem hW ?_)
    filter_upwards [he] with z hz
    rw [hz, hp]
    simp only
    rw [mul_pow, hqn, smul_eq_mul]
  obtain ⟨ε, hε, hb⟩ := Metric.mem_nhds_iff.mp himg
  have hprim := Complex.isPrimitiveRoot_exp n hn0
  set ζ := Complex.exp (2 * Real.pi * Complex.I / n) with hζ
  have hζ1 : ζ ≠ 1 := hprim.ne_one (by omega)
  have hζn : ‖ζ‖ = 1 := hprim.norm'_eq_one hn0
  rw [Metric.eventually_nhds_iff]
  refine ⟨ε ^ n, by positivity, fun a ha hne => ?_⟩
  set b := (a - f z₀) ^ ((n : ℂ)⁻¹) with hbdef
  have hbn : b ^ n = a - f z₀ := Complex.cpow_nat_inv_pow _ hn0
  have hb0 : b ≠ 0 := by
    intro h
    rw [h, zero_pow hn0] at hbn
    exact hne (sub_eq_zero.mp hbn.symm)
  have hbl : ‖b‖ < ε := by
    rw [dist_eq_norm, ← hbn, norm_pow] at ha
    exact lt_of_pow_lt_pow_left₀ n hε.le ha
  obtain ⟨s, ⟨hsW, hs⟩, hsb⟩ := hb (mem_ball_zero_iff.mpr hbl)
  obtain ⟨t, ⟨htW, ht⟩, htb⟩ := hb (mem_ball_zero_iff.mpr (show ‖ζ * b‖ < ε by rw [norm_mul, hζn, one_mul]; exact hbl))
  have hs : f s - f z₀ = p s ^ n := hs
  have ht : f t - f z₀ = p t ^ n := ht
  refine ⟨s, hsW, t, htW, ?_, ?_, ?_⟩
  · rintro rfl
    rw [hsb] at htb
    exact hζ1 (mul_right_cancel₀ hb0 (by rw [one_mul]; exact htb.symm))
  · rw [hsb, hbn] at hs
    linear_combination hs
  · rw [htb, mul_pow, hprim.pow_eq_one, one_mul, hbn] at ht
    linear_combination ht

/-- An analytic map from an open set to the unit disc that is proper and has one zero, at 0 and simple. -/
structure Proper (Y : Set ℂ) (κ : ℂ → ℂ) : Prop where
  isOpen : IsOpen Y
  diff : DifferentiableOn ℂ κ Y
  lt : ∀ s ∈ Y, ‖κ s‖ < 1
  mem : (0 : ℂ) ∈ Y
  zero : κ 0 = 0
  only : ∀ s ∈ Y, κ s = 0 → s = 0
  deriv : deriv κ 0 ≠ 0
  proper : ∀ r < 1, IsCompact {s | s ∈ Y ∧ ‖κ s‖ ≤ r}

variable {Y : Set ℂ} {κ : ℂ → ℂ}

theorem Proper.analyticAt (h : Proper Y κ) {s : ℂ} (hs : s ∈ Y) : AnalyticAt ℂ κ s :=
  h.diff.analyticAt (h.isOpen.mem_nhds hs)

/-- The preimages of nearby points are near the preimages. -/
theorem Proper.nhds (h : Proper Y κ) {u : ℂ} (hu : ‖u‖ < 1) {W : Set ℂ} (hWo : IsOpen W)
    (hW : ∀ t ∈ Y, κ t = u → t ∈ W) : ∀ᶠ a in 𝓝 u, ∀ t ∈ Y, κ t = a → t ∈ W := by
  set r := (1 + ‖u‖) / 2 with hr
  have hr1 : r < 1 := by linarith
  have hK := (h.proper r hr1).diff hWo
  have hc : ContinuousOn κ ({s | s ∈ Y ∧ ‖κ s‖ ≤ r} \ W) := h.diff.continuousOn.mono fun s hs => hs.1.1
  have hcl := (hK.image_of_continuousOn hc).isClosed
  have hnot : u ∉ κ '' ({s | s ∈ Y ∧ ‖κ s‖ ≤ r} \ W) := by
    rintro ⟨t, ⟨⟨ht, _⟩, htW⟩, rfl⟩
    exact htW (hW t ht rfl)
  have h1 : ∀ᶠ a in 𝓝 u, ‖a‖ < r := continuous_norm.continuousAt.eventually_lt_const (by rw [hr]; linarith)
  filter_upwards [hcl.isOpen_compl.mem_nhds hnot, h1] with a ha1 ha2 t ht hta
  by_contra htW
  exact ha1 ⟨t, ⟨⟨ht, by rw [hta]; exact ha2.le⟩, htW⟩, hta⟩

/-- The map is nowhere locally constant. -/
theorem Proper.not_const (h : Proper Y κ) {s : ℂ} (hs : s ∈ Y) : ¬∀ᶠ z in 𝓝 s, κ z = κ s := by
  intro hconst
  set u := κ s with hu
  set Z := {z | z ∈ Y ∧ ∀ᶠ w in 𝓝 z, κ w = u} with hZ
  have hsub : Z ⊆ {z | z ∈ Y ∧ ‖κ z‖ ≤ ‖u‖} := by
    rintro z ⟨h1, h2⟩
    exact ⟨h1, by rw [h2.self_of_nhds]⟩
  have hcomp := h.proper ‖u‖ (h.lt s hs)
  have hopen : IsOpen Z := by
    rw [isOpen_iff_mem_nhds]
    rintro z ⟨h1, h2⟩
    filter_upwards [h.isOpen.mem_nhds h1, eventually_eventually_nhds.mpr h2] with w hw1 hw2
    exact ⟨hw1, hw2⟩
  have hclosed : IsClosed Z := by
    rw [← closure_subset_iff_isClosed]
    intro z hz
    have hzY : z ∈ Y := (closure_minimal hsub hcomp.isClosed hz).1
    have ha : AnalyticAt ℂ (fun w => κ w - u) z := (h.analyticAt hzY).sub analyticAt_const
    refine ⟨hzY, ?_⟩
    by_contra hne
    have hne' : ¬∀ᶠ w in 𝓝 z, κ w - u = 0 := by
      intro hh
      exact hne (hh.mono fun w hw => sub_eq_zero.mp hw)
    have h1 := ha.eventually_eq_zero_or_eventually_ne_zero.resolve_left hne'
    have h2 : ∃ᶠ w in 𝓝 z, w ∈ Z := mem_closure_iff_frequently.mp hz
    rw [eventually_nhdsWithin_iff] at h1
    obtain ⟨w, hw1, hw2⟩ := (h2.and_eventually (eventually_eventually_nhds.mpr h1)).exists
    have h3 : ∀ᶠ x in 𝓝 w, x = z := by
      filter_upwards [hw1.2, hw2] with x hx1 hx2
      by_contra hxz
      exact hx2 hxz (sub_eq_zero.mpr hx1)
    have h4 : w = z := h3.self_of_nhds
    subst h4
    have h5 : (𝓝[≠] w).NeBot := inferInstance
    obtain ⟨x, hx1, hx2⟩ := ((h3.filter_mono nhdsWithin_le_nhds).and (self_mem_nhdsWithin (s := {w}ᶜ))).exists
    exact hx2 hx1
  rcases isClopen_iff.mp ⟨hclosed, hopen⟩ with hem | huniv
  · exact (Set.eq_empty_iff_forall_notMem.mp hem s) ⟨hs, hconst⟩
  · have h0 : (0 : ℂ) ∈ Z := by rw [huniv]; exact Set.mem_univ _
    have h1 : κ =ᶠ[𝓝 0] fun _ => u := h0.2
    have h2 := h1.deriv_eq
    rw [deriv_const] at h2
    exact h.deriv h2

theorem Proper.open_at (h : Proper Y κ) {s : ℂ} (hs : s ∈ Y) : 𝓝 (κ s) ≤ map κ (𝓝 s) :=
  (h.analyticAt hs).eventually_constant_or_nhds_le_map_nhds.resolve_left (h.not_const hs)

/-- The points of the disc with exactly one preimage, a simple one. -/
def Simple (Y : Set ℂ) (κ : ℂ → ℂ) : Set ℂ :=
  {u | ‖u‖ < 1 ∧ ∃ s ∈ Y, κ s = u ∧ _root_.deriv κ s ≠ 0 ∧ ∀ t ∈ Y, κ t = u → t = s}

theorem Proper.simple_open (h : Proper Y κ) : IsOpen (Simple Y κ) := by
  rw [isOpen_iff_mem_nhds]
  rintro _ ⟨hu, s, hs, rfl, hd, huniq⟩
  have ha := h.analyticAt hs
  have hst := ha.hasStrictDerivAt
  have hleft := hst.hasStrictFDerivAt_equiv hd |>.eventually_left_inverse
  have hderiv : ∀ᶠ z in 𝓝 s, _root_.deriv κ z ≠ 0 := ha.deriv.continuousAt.eventually_ne hd
  obtain ⟨W, hWs, hWo, hsW⟩ := _root_.mem_nhds_iff.mp (inter_mem (inter_mem (h.isOpen.mem_nhds hs) hleft) hderiv)
  have h1 := h.nhds hu hWo fun t ht e => by rw [huniq t ht e]; exact hsW
  have h2 : κ '' W ∈ 𝓝 (κ s) := h.open_at hs (image_mem_map (hWo.mem_nhds hsW))
  have h3 : ∀ᶠ a in 𝓝 (κ s), ‖a‖ < 1 := continuous_norm.continuousAt.eventually_lt_const hu
  filter_upwards [h1, h2, h3] with a h1 h2 h3
  obtain ⟨t, htW, hta⟩ := h2
  refine ⟨h3, t, (hWs htW).1.1, hta, (hWs htW).2, fun x hx hxa => ?_⟩
  have hxW := h1 x hx hxa
  have e1 := (hWs hxW).1.2
  have e2 := (hWs htW).1.2
  simp only [Set.mem_ofPred_eq] at e1 e2
  rw [← e1, ← e2, hxa, hta]

theorem Proper.simple_closed (h : Proper Y κ) : closure (Simple Y κ) ∩ ball 0 1 ⊆ Simple Y κ := by
  rintro u ⟨hu, hu1⟩
  rw [mem_ball_zero_iff] at hu1
  by_contra hnot
  have hfreq : ∃ᶠ a in 𝓝 u, a ∈ Simple Y κ := mem_closure_iff_frequently.mp hu
  obtain ⟨s, hs, hsu⟩ : ∃ s ∈ Y, κ s = u := by
    by_contra hne
    push Not at hne
    have h1 := h.nhds hu1 isOpen_empty fun t ht e => absurd e (hne t ht)
    obtain ⟨a, ⟨_, t, ht, hta, _⟩, ha2⟩ := (hfreq.and_eventually h1).exists
    exact ha2 t ht hta
  have huniq : ∀ t ∈ Y, κ t = u → t = s := by
    intro t ht htu
    by_contra hne
    obtain ⟨U, V, hU, hV, hsU, htV, hdisj⟩ := t2_separation hne
    have h1 : κ '' (U ∩ Y) ∈ 𝓝 u := by
      rw [← htu]
      exact h.open_at ht (image_mem_map (inter_mem (hU.mem_nhds hsU) (h.isOpen.mem_nhds ht)))
    have h2 : κ '' (V ∩ Y) ∈ 𝓝 u := by
      rw [← hsu]
      exact h.open_at hs (image_mem_map (inter_mem (hV.mem_nhds htV) (h.isOpen.mem_nhds hs)))
    obtain ⟨a, ⟨_, x, _, _, _, hx⟩, ⟨y, ⟨hyU, hyY⟩, hya⟩, ⟨z, ⟨hzV, hzY⟩, hza⟩⟩ :=
      (hfreq.and_eventually (inter_mem h1 h2)).exists
    have e1 := hx y hyY hya
    have e2 := hx z hzY hza
    rw [e1] at hyU
    rw [e2] at hzV
    exact Set.disjoint_left.mp hdisj hyU hzV
  by_cases hd : _root_.deriv κ s = 0
  · have h1 := two_preimages (h.analyticAt hs) hd (h.not_const hs) (h.isOpen.mem_nhds hs)
    rw [hsu] at h1
    obtain ⟨a, ha, h2⟩ := (hfreq.and_eventually h1).exists
    have hne : a ≠ u := by
      rintro rfl
      exact hnot ha
    obtain ⟨x, hx, y, hy, hxy, hxa, hya⟩ := h2 hne
    obtain ⟨_, z, _, _, _, hz⟩ := ha
    exact hxy ((hz x hx hxa).trans (hz y hy hya).symm)
  · exact hnot ⟨hu1, s, hs, hsu, hd, huniq⟩

theorem Proper.all_simple (h : Proper Y κ) : ball 0 1 ⊆ Simple Y κ := by
  refine (convex_ball (0 : ℂ) 1).isPreconnected.subset_of_closure_inter_subset h.simple_open ?_ h.simple_closed
  refine ⟨0, mem_ball_self one_pos, by simp, 0, h.mem, h.zero, h.deriv, fun t ht e => h.only t ht e⟩

/-- The inverse map. -/
theorem Proper.inverse (h : Proper Y κ) : ∃ σ : ℂ → ℂ, DifferentiableOn ℂ σ (ball 0 1) ∧
    (∀ u ∈ ball (0 : ℂ) 1, σ u ∈ Y ∧ κ (σ u) = u) ∧ ∀ s ∈ Y, σ (κ s) = s := by
  choose! σ hσ using fun u (hu : u ∈ ball (0 : ℂ) 1) => (h.all_simple hu).2
  have inv : ∀ s ∈ Y, σ (κ s) = s := fun s hs =>
    ((hσ (κ s) (mem_ball_zero_iff.mpr (h.lt s hs))).2.2.2 s hs rfl).symm
  refine ⟨σ, fun u hu => ?_, fun u hu => ⟨(hσ u hu).1, (hσ u hu).2.1⟩, inv⟩
  apply DifferentiableAt.differentiableWithinAt
  obtain ⟨h1, h2, h3, h4⟩ := hσ u hu
  have hev : ∀ᶠ a in 𝓝 u, a ∈ ball (0 : ℂ) 1 := isOpen_ball.mem_nhds hu
  have hcont : ContinuousAt σ u := by
    rw [ContinuousAt, _root_.tendsto_nhds]
    intro W hW hmem
    filter_upwards [h.nhds (mem_ball_zero_iff.mp hu) hW fun t ht e => by rw [h4 t ht e]; exact hmem, hev] with a ha hb
    exact ha _ (hσ a hb).1 (hσ a hb).2.1
  have hder : HasDerivAt κ (_root_.deriv κ (σ u)) (σ u) := (h.analyticAt h1).differentiableAt.hasDerivAt
  exact (hder.of_local_left_inverse hcont h3 (hev.mono fun a ha => (hσ a ha).2.1)).differentiableAt

end MSet

end Mandelbrot
