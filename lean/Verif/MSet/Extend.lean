import Verif.MSet.Chi
import Mathlib.Analysis.Complex.BranchLogRoot
import Mathlib.Analysis.SpecialFunctions.Exp

/-!
# The inverse Böttcher map down to the critical level

By taking square roots, `χ` extends to every `u` with `|u| < exp(-G(c,0))`.
-/

namespace Mandelbrot

namespace MSet

open Filter Topology Metric

/-- Two orbits that stay close relative to their size are equal. -/
theorem repel {c : ℂ} {a b : ℕ → ℂ} (ha : ∀ m, a (m + 1) = a m ^ 2 + c) (hb : ∀ m, b (m + 1) = b m ^ 2 + c)
    (h0 : ∀ m, b m ≠ 0) (hc : ∀ m, ‖c‖ ≤ 1 / 6 * ‖b m‖ ^ 2) (h : ∀ m, ‖a m / b m - 1‖ ≤ 1 / 3) : a 0 = b 0 := by
  by_contra hne
  have grow : ∀ m, (10 / 7) ^ m * ‖a 0 / b 0 - 1‖ ≤ ‖a m / b m - 1‖ := by
    intro m
    induction m with
    | zero => simp
    | succ m ih =>
      have hbm := norm_pos_iff.mpr (h0 m)
      have hbm' := norm_pos_iff.mpr (h0 (m + 1))
      have h1 : ‖a (m + 1) / b (m + 1) - 1‖ * ‖b (m + 1)‖ = ‖a m / b m - 1‖ * ‖b m‖ ^ 2 * ‖2 + (a m / b m - 1)‖ := by
        rw [← norm_pow, ← norm_mul, ← norm_mul, ← norm_mul]
        congr 1
        rw [sub_mul, one_mul, div_mul_cancel₀ _ (h0 _), ha, hb]
        have := h0 m
        field_simp
        ring
      have h2 : ‖b (m + 1)‖ ≤ 7 / 6 * ‖b m‖ ^ 2 := by
        rw [hb]
        have := norm_add_le (b m ^ 2) c
        rw [norm_pow] at this
        linarith [hc m]
      have h3 : 5 / 3 ≤ ‖2 + (a m / b m - 1)‖ := by
        have h4 := norm_sub_norm_le (2 : ℂ) (-(a m / b m - 1))
        rw [sub_neg_eq_add, norm_neg] at h4
        have : ‖(2 : ℂ)‖ = 2 := by simp
        linarith [h m]
      have h5 : ‖a m / b m - 1‖ * ‖b m‖ ^ 2 * (5 / 3) ≤ ‖a (m + 1) / b (m + 1) - 1‖ * (7 / 6 * ‖b m‖ ^ 2) := by
        calc ‖a m / b m - 1‖ * ‖b m‖ ^ 2 * (5 / 3) ≤ ‖a m / b m - 1‖ * ‖b m‖ ^ 2 * ‖2 + (a m / b m - 1)‖ := by gcongr
          _ = ‖a (m + 1) / b (m + 1) - 1‖ * ‖b (m + 1)‖ := h1.symm
          _ ≤ _ := by gcongr
      have h6 : ‖a m / b m - 1‖ * (10 / 7) ≤ ‖a (m + 1) / b (m + 1) - 1‖ := by
        have h7 : 0 < ‖b m‖ ^ 2 := by positivity
        have h8 : (‖a m / b m - 1‖ * (10 / 7)) * ‖b m‖ ^ 2 ≤ ‖a (m + 1) / b (m + 1) - 1‖ * ‖b m‖ ^ 2 := by
          linarith
        exact le_of_mul_le_mul_right h8 h7
      rw [pow_succ]
      linarith
  have hp : 0 < ‖a 0 / b 0 - 1‖ := by
    rw [norm_pos_iff, sub_ne_zero, Ne, div_eq_one_iff_eq (h0 0)]
    exact hne
  obtain ⟨n, hn⟩ := pow_unbounded_of_one_lt (1 / ‖a 0 / b 0 - 1‖) (show (1 : ℝ) < 10 / 7 by norm_num)
  rw [div_lt_iff₀ hp] at hn
  linarith [grow n, h n]

/-- A number whose repeated squares stay near 1 is 1. -/
theorem repel_sq {l : ℂ} (h : ∀ m : ℕ, ‖l ^ 2 ^ m - 1‖ ≤ 1 / 3) : l = 1 := by
  have := repel (c := 0) (a := fun m => l ^ 2 ^ m) (b := fun _ => 1)
    (fun m => by simp only [add_zero]; rw [← pow_mul, pow_succ]) (fun _ => by simp) (fun _ => one_ne_zero)
    (fun _ => by simp) fun m => by simpa using h m
  simpa using this

theorem ratio_near {x y : ℂ} (hx : ‖x - 1‖ ≤ 1 / 7) (hy : ‖y - 1‖ ≤ 1 / 7) : ‖x / y - 1‖ ≤ 1 / 3 := by
  have h1 : 6 / 7 ≤ ‖y‖ := by
    have := norm_sub_norm_le (1 : ℂ) (-(y - 1))
    rw [norm_neg, norm_one, show (1 : ℂ) - -(y - 1) = y by ring] at this
    linarith
  have h2 : y ≠ 0 := by
    rw [← norm_pos_iff]
    linarith
  rw [div_sub_one h2, norm_div, div_le_iff₀ (by linarith)]
  have := norm_sub_le (x - 1) (y - 1)
  rw [sub_sub_sub_cancel_right] at this
  linarith

/-- The points reached after `n` square roots. -/
def O (n : ℕ) : Set (ℂ × ℂ) := {p | ‖p.2‖ < Real.exp (-G p.1 0) ∧ ‖p.1‖ * ‖p.2‖ ^ 2 ^ (n + 1) < 1 / 10}

theorem O_open (n : ℕ) : IsOpen (O n) := by
  have h1 : IsOpen {p : ℂ × ℂ | ‖p.2‖ < Real.exp (-G p.1 0)} := by
    refine isOpen_lt (by fun_prop) (Real.continuous_exp.comp (Continuous.neg ?_))
    exact G_continuous.comp (continuous_fst.prodMk continuous_const)
  have h2 : IsOpen {p : ℂ × ℂ | ‖p.1‖ * ‖p.2‖ ^ 2 ^ (n + 1) < 1 / 10} := isOpen_lt (by fun_prop) (by fun_prop)
  exact h1.inter h2

theorem exp_G_le (c z : ℂ) : Real.exp (-G c z) ≤ 1 := by
  rw [Real.exp_le_one_iff]
  linarith [G_nonneg c z]

theorem O_lt_one {n : ℕ} {c u : ℂ} (h : (c, u) ∈ O n) : ‖u‖ < 1 := lt_of_lt_of_le h.1 (exp_G_le c 0)

theorem O_mono {n : ℕ} {c u v : ℂ} (h : (c, u) ∈ O n) (hv : ‖v‖ ≤ ‖u‖) : (c, v) ∈ O n := by
  obtain ⟨h1, h2⟩ := h
  refine ⟨lt_of_le_of_lt hv h1, lt_of_le_of_lt ?_ h2⟩
  simp only
  gcongr

theorem O_succ {n m : ℕ} (hnm : n ≤ m) : O n ⊆ O m := by
  rintro ⟨c, u⟩ h
  refine ⟨h.1, lt_of_le_of_lt ?_ h.2⟩
  simp only
  have h1 := (O_lt_one h).le
  have : ‖u‖ ^ 2 ^ (m + 1) ≤ ‖u‖ ^ 2 ^ (n + 1) :=
    pow_le_pow_of_le_one (norm_nonneg _) h1 (Nat.pow_le_pow_right (by norm_num) (by omega))
  gcongr

theorem norm_sq_le {u : ℂ} (h : ‖u‖ < 1) : ‖u ^ 2‖ ≤ ‖u‖ := by
  rw [norm_pow]
  exact pow_le_of_le_one (norm_nonneg _) h.le two_ne_zero

theorem O_sq {n : ℕ} {c u : ℂ} (h : (c, u) ∈ O (n + 1)) : (c, u ^ 2) ∈ O n := by
  refine ⟨lt_of_le_of_lt (norm_sq_le (O_lt_one h)) h.1, ?_⟩
  have := h.2
  simp only at this ⊢
  rwa [norm_pow, ← pow_mul, ← pow_succ']

theorem O_sq' {n : ℕ} {c u : ℂ} (h : (c, u) ∈ O n) : (c, u ^ 2) ∈ O n := O_mono h (norm_sq_le (O_lt_one h))

theorem O_zero_mem (n : ℕ) (c : ℂ) : (c, (0 : ℂ)) ∈ O n := by
  refine ⟨?_, ?_⟩
  · simp only [norm_zero]
    exact Real.exp_pos _
  · simp

theorem O_N0 {n : ℕ} {p : ℂ × ℂ} (h : p ∈ O n) (h0 : p ∈ N0) : p ∈ O 0 := ⟨h.1, by simpa using h0.2⟩

/-- Every point below the critical level is reached. -/
theorem mem_O {c u : ℂ} (h : ‖u‖ < Real.exp (-G c 0)) : ∃ n, (c, u) ∈ O n := by
  have h1 : ‖u‖ < 1 := lt_of_lt_of_le h (exp_G_le c 0)
  have ht : Tendsto (fun n : ℕ => ‖c‖ * ‖u‖ ^ 2 ^ (n + 1)) atTop (𝓝 (‖c‖ * 0)) := by
    refine Tendsto.const_mul _ ?_
    refine (tendsto_pow_atTop_nhds_zero_of_lt_one (norm_nonneg u) h1).comp ?_
    exact (tendsto_pow_atTop_atTop_of_one_lt (by norm_num)).comp (tendsto_add_atTop_nat 1)
  rw [mul_zero] at ht
  obtain ⟨n, hn⟩ := (ht.eventually_lt_const (show (0 : ℝ) < 1 / 10 by norm_num)).exists
  exact ⟨n, h, hn⟩

/-- After enough squarings a point is near infinity, and as far as one likes. -/
theorem eventually_N0 (c : ℂ) {u : ℂ} (h : ‖u‖ < 1) {r : ℝ} (hr : 0 < r) :
    ∃ m₀ : ℕ, ∀ m ≥ m₀, (c, u ^ 2 ^ m) ∈ N0 ∧ ‖u ^ 2 ^ m‖ < r := by
  have ht : Tendsto (fun n : ℕ => ‖u‖ ^ 2 ^ n) atTop (𝓝 0) :=
    (tendsto_pow_atTop_nhds_zero_of_lt_one (norm_nonneg u) h).comp (tendsto_pow_atTop_atTop_of_one_lt (by norm_num))
  have ht2 : Tendsto (fun n : ℕ => ‖c‖ * (‖u‖ ^ 2 ^ n) ^ 2) atTop (𝓝 (‖c‖ * 0 ^ 2)) := (ht.pow 2).const_mul _
  rw [zero_pow two_ne_zero, mul_zero] at ht2
  have h1 := ht.eventually_lt_const (show (0 : ℝ) < 1 by norm_num)
  have h2 := ht2.eventually_lt_const (show (0 : ℝ) < 1 / 10 by norm_num)
  have h3 := ht.eventually_lt_const hr
  obtain ⟨m₀, hm⟩ := eventually_atTop.mp (h1.and (h2.and h3))
  refine ⟨m₀, fun m hm' => ?_⟩
  obtain ⟨a, b, d⟩ := hm m hm'
  rw [norm_pow]
  exact ⟨⟨by simpa using a, by simpa using b⟩, d⟩

/-- `χ` on a set of points: the inverse Böttcher map, times `u`. -/
structure IsChi (n : ℕ) (χ : ℂ × ℂ → ℂ) : Prop where
  cont : ContinuousOn χ (O n)
  zero : ∀ c, χ (c, 0) = 1
  eq : ∀ c u, (c, u) ∈ O n → χ (c, u) ^ 2 + c * u ^ 2 = χ (c, u ^ 2)
  near : ∀ p ∈ O n, p ∈ N0 → ‖χ p - 1‖ ≤ 1 / 7

theorem IsChi.orb {n : ℕ} {χ : ℂ × ℂ → ℂ} (h : IsChi n χ) {c u : ℂ} (hu : (c, u) ∈ O n) (h0 : u ≠ 0) (m : ℕ) :
    (c, u ^ 2 ^ m) ∈ O n ∧ orb c (χ (c, u) / u) m = χ (c, u ^ 2 ^ m) / u ^ 2 ^ m := by
  induction m with
  | zero => simpa [MSet.orb] using hu
  | succ m ih =>
    have e : u ^ 2 ^ (m + 1) = (u ^ 2 ^ m) ^ 2 := by rw [← pow_mul, pow_succ]
    refine ⟨by rw [e]; exact O_sq' ih.1, ?_⟩
    rw [MSet.orb, ih.2, e, ← h.eq _ _ ih.1]
    have : u ^ 2 ^ m ≠ 0 := pow_ne_zero _ h0
    field_simp

theorem near_bounds {x : ℂ} (hx : ‖x - 1‖ ≤ 1 / 7) : 6 / 7 ≤ ‖x‖ ∧ ‖x‖ ≤ 8 / 7 := by
  have h1 := norm_sub_norm_le (1 : ℂ) (-(x - 1))
  have h2 := norm_add_le (1 : ℂ) (x - 1)
  rw [norm_neg, norm_one, show (1 : ℂ) - -(x - 1) = x by ring] at h1
  rw [norm_one, show (1 : ℂ) + (x - 1) = x by ring] at h2
  exact ⟨by linarith, by linarith⟩

/-- The rate of escape of the point with coordinate `1/u`. -/
theorem IsChi.rate {n : ℕ} {χ : ℂ × ℂ → ℂ} (h : IsChi n χ) {c u : ℂ} (hu : (c, u) ∈ O n) (h0 : u ≠ 0) :
    G c (χ (c, u) / u) = -Real.log ‖u‖ := by
  obtain ⟨m₀, hm₀⟩ := eventually_N0 c (O_lt_one hu) (show (0 : ℝ) < 6 / 7 by norm_num)
  have key : ∀ m ≥ m₀, 2 ^ m * |G c (χ (c, u) / u) + Real.log ‖u‖| ≤ B c + Real.log 2 := by
    intro m hm
    obtain ⟨hN, hr⟩ := hm₀ m hm
    obtain ⟨hO, ho⟩ := h.orb hu h0 m
    obtain ⟨b1, b2⟩ := near_bounds (h.near _ hO hN)
    have hv : 0 < ‖u ^ 2 ^ m‖ := norm_pos_iff.mpr (pow_ne_zero _ h0)
    have hx : 1 ≤ ‖χ (c, u ^ 2 ^ m) / u ^ 2 ^ m‖ := by
      rw [norm_div, le_div_iff₀ hv]
      linarith
    have h1 := G_sub_L c (MSet.orb c (χ (c, u) / u) m)
    rw [G_orb, ho, L_of_one_le hx, norm_div, Real.log_div (by linarith) hv.ne', norm_pow, Real.log_pow] at h1
    have h2 : |Real.log ‖χ (c, u ^ 2 ^ m)‖| ≤ Real.log 2 := by
      rw [abs_le, ← Real.log_inv]
      exact ⟨Real.log_le_log (by norm_num) (by linarith), Real.log_le_log (by linarith) (by linarith)⟩
    rw [← abs_of_pos (show (0 : ℝ) < 2 ^ m by positivity), ← abs_mul]
    rw [abs_le] at h1 h2 ⊢
    push_cast at h1
    constructor
    · linarith [h1.1, h2.1]
    · linarith [h1.2, h2.2]
  by_contra hne
  have hp : 0 < |G c (χ (c, u) / u) + Real.log ‖u‖| := by
    rw [abs_pos]
    intro hz
    exact hne (by linarith)
  obtain ⟨k, hk⟩ := pow_unbounded_of_one_lt ((B c + Real.log 2) / |G c (χ (c, u) / u) + Real.log ‖u‖|)
    (one_lt_two (α := ℝ))
  rw [div_lt_iff₀ hp] at hk
  have h1 := key (max k m₀) (le_max_right _ _)
  have h2 : (2 : ℝ) ^ k ≤ 2 ^ max k m₀ := pow_le_pow_right₀ (by norm_num) (le_max_left _ _)
  nlinarith

theorem IsChi.ne_zero {n : ℕ} {χ : ℂ × ℂ → ℂ} (h : IsChi n χ) {c u : ℂ} (hu : (c, u) ∈ O n) : χ (c, u) ≠ 0 := by
  intro hz
  rcases eq_or_ne u 0 with rfl | h0
  · rw [h.zero] at hz
    exact one_ne_zero hz
  · have h1 := h.rate hu h0
    rw [hz, zero_div] at h1
    have h2 := hu.1
    simp only at h2
    rw [h1, neg_neg, Real.exp_log (norm_pos_iff.mpr h0)] at h2
    exact lt_irrefl _ h2

/-- The point with coordinate `1/u^2` is not the critical value. -/
theorem IsChi.ne_crit {n : ℕ} {χ : ℂ × ℂ → ℂ} (h : IsChi n χ) {c u : ℂ} (hu : (c, u) ∈ O (n + 1)) :
    χ (c, u ^ 2) - c * u ^ 2 ≠ 0 := by
  intro hz
  rcases eq_or_ne u 0 with rfl | h0
  · rw [zero_pow two_ne_zero, h.zero, mul_zero, sub_zero] at hz
    exact one_ne_zero hz
  · have h0' : u ^ 2 ≠ 0 := pow_ne_zero _ h0
    have h1 := h.rate (O_sq hu) h0'
    rw [sub_eq_zero.mp hz, mul_div_cancel_right₀ _ h0', G_critical, norm_pow, Real.log_pow] at h1
    have h2 := hu.1
    simp only at h2
    have h3 : -G c 0 = Real.log ‖u‖ := by push_cast at h1; linarith
    rw [h3, Real.exp_log (norm_pos_iff.mpr h0)] at h2
    exact lt_irrefl _ h2

/-- Square roots that agree at `u = 0` agree. -/
theorem eq_of_sq {n : ℕ} {f g : ℂ × ℂ → ℂ} (hf : ContinuousOn f (O n)) (hg : ContinuousOn g (O n))
    (hsq : ∀ p ∈ O n, f p ^ 2 = g p ^ 2) (hne : ∀ p ∈ O n, g p ≠ 0) {c : ℂ} (h0 : f (c, 0) = g (c, 0)) {u : ℂ}
    (hu : (c, u) ∈ O n) : f (c, u) = g (c, u) := by
  have hmap : Set.MapsTo (fun v : ℂ => (c, v)) (closedBall 0 ‖u‖) (O n) := by
    intro v hv
    rw [mem_closedBall_zero_iff] at hv
    exact O_mono hu hv
  have hcont : ContinuousOn (fun v : ℂ => (c, v)) (closedBall 0 ‖u‖) := by fun_prop
  have h1 := IsPreconnected.eq_of_sq_eq (S := closedBall (0 : ℂ) ‖u‖) (f := fun v => f (c, v)) (g := fun v => g (c, v))
    (convex_closedBall _ _).isPreconnected (hf.comp hcont hmap) (hg.comp hcont hmap)
    (fun v hv => hsq _ (hmap hv)) (fun {v} hv => hne _ (hmap hv)) (y := 0) (by simp) h0
  exact h1 (by simp)

theorem O_simplyConnected (n : ℕ) : IsSimplyConnected (O n) := by
  have : ContractibleSpace (O n) := by
    rw [contractible_iff_id_nullhomotopic]
    refine ⟨⟨(0, 0), O_zero_mem n 0⟩, ⟨?_⟩⟩
    refine ⟨⟨fun q => ⟨(((1 - max 0 (2 * (q.1 : ℝ) - 1) : ℝ) : ℂ) * q.2.1.1,
      ((max 0 (1 - 2 * (q.1 : ℝ)) : ℝ) : ℂ) * q.2.1.2), ?_⟩, ?_⟩, ?_, ?_⟩
    · obtain ⟨t, ⟨c, u⟩, hu⟩ := q
      simp only
      have ht0 := t.2.1
      rcases le_total (t : ℝ) (1 / 2) with ht | ht
      · rw [max_eq_left (by linarith : 2 * (t : ℝ) - 1 ≤ 0), max_eq_right (by linarith : (0 : ℝ) ≤ 1 - 2 * t), sub_zero,
          Complex.ofReal_one, one_mul]
        refine O_mono hu ?_
        rw [norm_mul, Complex.norm_real, Real.norm_of_nonneg (by linarith)]
        exact mul_le_of_le_one_left (norm_nonneg _) (by linarith)
      · rw [max_eq_left (by linarith : 1 - 2 * (t : ℝ) ≤ 0), Complex.ofReal_zero, zero_mul]
        exact O_zero_mem n _
    · fun_prop
    · rintro ⟨⟨c, u⟩, hu⟩
      simp
    · rintro ⟨⟨c, u⟩, hu⟩
      norm_num
  exact SimplyConnectedSpace.ofContractible _

theorem exists_base : ∃ χ, IsChi 0 χ := by
  obtain ⟨χ, h1, h2, h3, h4⟩ := exists_chi
  have sub : O 0 ⊆ N0 := by
    rintro ⟨c, u⟩ h
    exact ⟨O_lt_one h, by simpa using h.2⟩
  exact ⟨χ, h1.mono sub, h3, fun c u h => h4 c u (sub h), fun p _ h => h2 p h⟩

theorem exists_step {n : ℕ} {χ : ℂ × ℂ → ℂ} (h : IsChi n χ) : ∃ χ', IsChi (n + 1) χ' := by
  have hF : ContinuousOn (fun p : ℂ × ℂ => χ (p.1, p.2 ^ 2) - p.1 * p.2 ^ 2) (O (n + 1)) := by
    refine ContinuousOn.sub ?_ (by fun_prop)
    exact h.cont.comp (f := fun p : ℂ × ℂ => (p.1, p.2 ^ 2)) (by fun_prop) fun p hp => O_sq hp
  obtain ⟨s, hs, hsq⟩ := Complex.exists_continuousOn_pow_eq (O_simplyConnected (n + 1)) (O_open (n + 1)) hF
    (by
      rintro ⟨⟨c, u⟩, hu, hz⟩
      exact h.ne_crit hu hz) two_ne_zero
  have h1 : ∀ c, s (c, 0) ^ 2 = 1 := by
    intro c
    rw [hsq]
    simp [h.zero]
  have h2 : ∀ c, s (c, 0) = s (0, 0) := by
    intro c
    have hc : Continuous fun c : ℂ => s (c, 0) := by
      rw [← continuousOn_univ]
      exact hs.comp (f := fun c : ℂ => (c, (0 : ℂ))) (by fun_prop) fun c _ => O_zero_mem _ c
    have := IsPreconnected.eq_of_sq_eq (S := Set.univ) (f := fun c : ℂ => s (c, 0)) (g := fun _ => s (0, 0))
      isPreconnected_univ hc.continuousOn continuousOn_const
      (fun c _ => by simp only [Pi.pow_apply]; rw [h1, h1])
      (fun {_} _ hz => by have := h1 0; rw [hz] at this; norm_num at this) (Set.mem_univ 0) rfl
    exact this (Set.mem_univ c)
  have hσ : s (0, 0) * s (0, 0) = 1 := by rw [← sq, h1]
  set χ' : ℂ × ℂ → ℂ := fun p => s (0, 0) * s p with hχ'
  have c1 : ContinuousOn χ' (O (n + 1)) := continuousOn_const.mul hs
  have z1 : ∀ c, χ' (c, 0) = 1 := fun c => by rw [hχ']; simp only; rw [h2 c, hσ]
  have q1 : ∀ c u, χ' (c, u) ^ 2 = χ (c, u ^ 2) - c * u ^ 2 := fun c u => by
    rw [hχ']
    simp only
    rw [mul_pow, h1, one_mul, hsq]
  have agree : ∀ c u, (c, u) ∈ O n → χ' (c, u) = χ (c, u) := by
    intro c u hu
    refine eq_of_sq (c1.mono (O_succ (Nat.le_succ n))) h.cont ?_ (fun p hp => h.ne_zero (c := p.1) (u := p.2) hp)
      (by rw [z1, h.zero]) hu
    rintro ⟨c, u⟩ hp
    rw [q1, ← h.eq c u hp]
    ring
  refine ⟨χ', c1, z1, ?_, ?_⟩
  · intro c u hu
    rw [q1, agree c _ (O_sq hu)]
    ring
  · rintro ⟨c, u⟩ hp hN
    have hn : (c, u) ∈ O n := O_succ (Nat.zero_le n) (O_N0 hp hN)
    rw [agree c u hn]
    exact h.near _ hn hN

theorem exists_isChi (n : ℕ) : ∃ χ, IsChi n χ := by
  induction n with
  | zero => exact exists_base
  | succ n ih => exact exists_step ih.choose_spec

/-- There is only one such function near infinity. -/
theorem IsChi.unique_near {n m : ℕ} {χ χ' : ℂ × ℂ → ℂ} (h : IsChi n χ) (h' : IsChi m χ') {c u : ℂ}
    (hn : (c, u) ∈ O n) (hm : (c, u) ∈ O m) (hN : (c, u) ∈ N0) : χ (c, u) = χ' (c, u) := by
  rcases eq_or_ne u 0 with rfl | h0
  · rw [h.zero, h'.zero]
  have hN' : ∀ k : ℕ, (c, u ^ 2 ^ k) ∈ N0 := by
    intro k
    induction k with
    | zero => simpa using hN
    | succ k ih =>
      rw [pow_succ, pow_mul]
      exact N0_sq ih
  have key := repel (c := c) (a := fun k => MSet.orb c (χ (c, u) / u) k) (b := fun k => MSet.orb c (χ' (c, u) / u) k)
    (fun _ => rfl) (fun _ => rfl)
  have hv : ∀ k : ℕ, u ^ 2 ^ k ≠ 0 := fun k => pow_ne_zero _ h0
  have := key ?_ ?_ ?_
  · simp only [MSet.orb] at this
    exact (div_left_inj' h0).mp this
  · intro k
    rw [(h'.orb hm h0 k).2]
    exact div_ne_zero (h'.ne_zero (h'.orb hm h0 k).1) (hv k)
  · intro k
    rw [(h'.orb hm h0 k).2, norm_div, div_pow]
    have b := (near_bounds (h'.near _ (h'.orb hm h0 k).1 (hN' k))).1
    have h2 := (hN' k).2
    simp only at h2
    have hp : 0 < ‖u ^ 2 ^ k‖ ^ 2 := by
      have := norm_pos_iff.mpr (hv k)
      positivity
    rw [← mul_div_assoc, le_div_iff₀ hp]
    nlinarith
  · intro k
    rw [(h'.orb hm h0 k).2, (h.orb hn h0 k).2, div_div_div_cancel_right₀ (hv k)]
    exact ratio_near (h.near _ (h.orb hn h0 k).1 (hN' k)) (h'.near _ (h'.orb hm h0 k).1 (hN' k))

/-- There is only one such function. -/
theorem IsChi.unique {n m : ℕ} {χ χ' : ℂ × ℂ → ℂ} (h : IsChi n χ) (h' : IsChi m χ') {c u : ℂ}
    (hn : (c, u) ∈ O n) (hm : (c, u) ∈ O m) : χ (c, u) = χ' (c, u) := by
  obtain ⟨m₀, hm₀⟩ := eventually_N0 c (O_lt_one hn) one_pos
  have main : ∀ k : ℕ, ∀ u, (c, u) ∈ O n → (c, u) ∈ O m → (c, u ^ 2 ^ k) ∈ N0 → χ (c, u) = χ' (c, u) := by
    intro k
    induction k with
    | zero =>
      intro u hn hm hN
      rw [pow_zero, pow_one] at hN
      exact h.unique_near h' hn hm hN
    | succ k ih =>
      intro u hn hm hN
      have hball : ∀ v ∈ closedBall (0 : ℂ) ‖u‖, χ (c, v ^ 2) = χ' (c, v ^ 2) := by
        intro v hv
        rw [mem_closedBall_zero_iff] at hv
        refine ih _ (O_sq' (O_mono hn hv)) (O_sq' (O_mono hm hv)) ?_
        rw [← pow_mul, ← pow_succ']
        obtain ⟨a, b⟩ := hN
        have : ‖v ^ 2 ^ (k + 1)‖ ≤ ‖u ^ 2 ^ (k + 1)‖ := by
          rw [norm_pow, norm_pow]
          gcongr
        refine ⟨lt_of_le_of_lt this a, lt_of_le_of_lt ?_ b⟩
        simp only
        gcongr
      have hmap : ∀ {j : ℕ}, (c, u) ∈ O j → Set.MapsTo (fun v : ℂ => (c, v)) (closedBall 0 ‖u‖) (O j) := by
        intro j hu v hv
        rw [mem_closedBall_zero_iff] at hv
        exact O_mono hu hv
      have hcont : ContinuousOn (fun v : ℂ => (c, v)) (closedBall 0 ‖u‖) := by fun_prop
      have h1 := IsPreconnected.eq_of_sq_eq (S := closedBall (0 : ℂ) ‖u‖) (f := fun v => χ (c, v))
        (g := fun v => χ' (c, v)) (convex_closedBall _ _).isPreconnected (h.cont.comp hcont (hmap hn))
        (h'.cont.comp hcont (hmap hm))
        (fun v hv => by
          simp only [Pi.pow_apply]
          linear_combination h.eq c v (hmap hn hv) - h'.eq c v (hmap hm hv) + hball v hv)
        (fun {v} hv => h'.ne_zero (hmap hm hv)) (y := 0) (by simp) (by rw [h.zero, h'.zero])
      exact h1 (by simp)
  exact main m₀ u hn hm (hm₀ m₀ le_rfl).1

/-- The inverse Böttcher map of `z ↦ z^2 + c` at `1/u`, times `u`. -/
noncomputable def chi (p : ℂ × ℂ) : ℂ := by
  classical
  exact if h : ∃ n, p ∈ O n then (exists_isChi (Nat.find h)).choose p else 1

/-- Below the critical level. -/
def Dom (c u : ℂ) : Prop := ‖u‖ < Real.exp (-G c 0)

theorem chi_eq {n : ℕ} {χ : ℂ × ℂ → ℂ} (h : IsChi n χ) {p : ℂ × ℂ} (hp : p ∈ O n) : chi p = χ p := by
  classical
  have hex : ∃ n, p ∈ O n := ⟨n, hp⟩
  rw [chi, dif_pos hex]
  exact (exists_isChi (Nat.find hex)).choose_spec.unique h (c := p.1) (u := p.2) (Nat.find_spec hex) hp

theorem isChi_chi (n : ℕ) : IsChi n chi := by
  obtain ⟨χ, h⟩ := exists_isChi n
  refine ⟨h.cont.congr fun p hp => chi_eq h hp, fun c => ?_, fun c u hu => ?_, fun p hp hN => ?_⟩
  · rw [chi_eq h (O_zero_mem n c), h.zero]
  · rw [chi_eq h hu, chi_eq h (O_sq' hu), h.eq c u hu]
  · rw [chi_eq h hp]
    exact h.near p hp hN

theorem Dom.mono {c u v : ℂ} (h : Dom c u) (hv : ‖v‖ ≤ ‖u‖) : Dom c v := lt_of_le_of_lt hv h

theorem Dom.lt_one {c u : ℂ} (h : Dom c u) : ‖u‖ < 1 := lt_of_lt_of_le h (exp_G_le c 0)

theorem chi_zero (c : ℂ) : chi (c, 0) = 1 := (isChi_chi 0).zero c

theorem chi_step {c u : ℂ} (h : Dom c u) : chi (c, u) ^ 2 + c * u ^ 2 = chi (c, u ^ 2) := by
  obtain ⟨n, hn⟩ := mem_O h
  exact (isChi_chi n).eq c u hn

theorem chi_near {c u : ℂ} (h : Dom c u) (hN : (c, u) ∈ N0) : ‖chi (c, u) - 1‖ ≤ 1 / 7 := by
  obtain ⟨n, hn⟩ := mem_O h
  exact (isChi_chi n).near _ hn hN

theorem chi_rate {c u : ℂ} (h : Dom c u) (h0 : u ≠ 0) : G c (chi (c, u) / u) = -Real.log ‖u‖ := by
  obtain ⟨n, hn⟩ := mem_O h
  exact (isChi_chi n).rate hn h0

theorem chi_ne_zero {c u : ℂ} (h : Dom c u) : chi (c, u) ≠ 0 := by
  obtain ⟨n, hn⟩ := mem_O h
  exact (isChi_chi n).ne_zero hn

theorem chi_continuousAt {c u : ℂ} (h : Dom c u) : ContinuousAt chi (c, u) := by
  obtain ⟨n, hn⟩ := mem_O h
  exact (isChi_chi n).cont.continuousAt ((O_open n).mem_nhds hn)

theorem chi_orb {c u : ℂ} (h : Dom c u) (h0 : u ≠ 0) (m : ℕ) :
    Dom c (u ^ 2 ^ m) ∧ orb c (chi (c, u) / u) m = chi (c, u ^ 2 ^ m) / u ^ 2 ^ m := by
  obtain ⟨n, hn⟩ := mem_O h
  obtain ⟨h1, h2⟩ := (isChi_chi n).orb hn h0 m
  exact ⟨h1.1, h2⟩

/-- `χ` is even. -/
theorem chi_neg {c u : ℂ} (h : Dom c u) : chi (c, -u) = chi (c, u) := by
  obtain ⟨n, hn⟩ := mem_O h
  have hc := (isChi_chi n).cont
  have hmap : Set.MapsTo (fun p : ℂ × ℂ => (p.1, -p.2)) (O n) (O n) := by
    rintro ⟨c, u⟩ hu
    exact O_mono hu (by rw [norm_neg])
  refine eq_of_sq (f := fun p : ℂ × ℂ => chi (p.1, -p.2)) (g := chi)
    (hc.comp (f := fun p : ℂ × ℂ => (p.1, -p.2)) (by fun_prop) hmap) hc ?_
    (fun p hp => (isChi_chi n).ne_zero (c := p.1) (u := p.2) hp) (by simp) hn
  rintro ⟨c, u⟩ hu
  have h1 := (isChi_chi n).eq c u hu
  have h2 := (isChi_chi n).eq c (-u) (hmap hu)
  simp only
  rw [neg_sq] at h2
  linear_combination h2 - h1

/-- Different coordinates belong to different points. -/
theorem chi_inj {c u v : ℂ} (hu : Dom c u) (hv : Dom c v) (h0 : u ≠ 0) (h0' : v ≠ 0)
    (h : chi (c, u) / u = chi (c, v) / v) : u = v := by
  obtain ⟨m₁, h1⟩ := eventually_N0 c hu.lt_one one_pos
  obtain ⟨m₂, h2⟩ := eventually_N0 c hv.lt_one one_pos
  have top : ∀ m ≥ max m₁ m₂, u ^ 2 ^ m = v ^ 2 ^ m := by
    intro m hm
    have hvm : v ^ 2 ^ m ≠ 0 := pow_ne_zero _ h0'
    rw [← div_eq_one_iff_eq hvm, ← div_pow]
    refine repel_sq fun k => ?_
    have e : ((u / v) ^ 2 ^ m) ^ 2 ^ k = u ^ 2 ^ (m + k) / v ^ 2 ^ (m + k) := by
      rw [← pow_mul, ← pow_add, div_pow]
    have a1 := chi_orb hu h0 (m + k)
    have a2 := chi_orb hv h0' (m + k)
    have n1 := chi_near a1.1 (h1 (m + k) (by have := le_max_left m₁ m₂; omega)).1
    have n2 := chi_near a2.1 (h2 (m + k) (by have := le_max_right m₁ m₂; omega)).1
    have hu' : u ^ 2 ^ (m + k) ≠ 0 := pow_ne_zero _ h0
    have hv' : v ^ 2 ^ (m + k) ≠ 0 := pow_ne_zero _ h0'
    have e2 := a1.2
    rw [h, a2.2, div_eq_div_iff hv' hu'] at e2
    have e3 : u ^ 2 ^ (m + k) / v ^ 2 ^ (m + k) = chi (c, u ^ 2 ^ (m + k)) / chi (c, v ^ 2 ^ (m + k)) := by
      rw [div_eq_div_iff hv' (chi_ne_zero a2.1)]
      linear_combination e2
    rw [e, e3]
    exact ratio_near n1 n2
  have down : ∀ m : ℕ, u ^ 2 ^ m = v ^ 2 ^ m → u = v := by
    intro m
    induction m with
    | zero => intro e; simpa using e
    | succ m ih =>
      intro e
      rw [pow_succ, pow_mul, pow_mul] at e
      rcases sq_eq_sq_iff_eq_or_eq_neg.mp e with e | e
      · exact ih e
      · exfalso
        have a1 := chi_orb hu h0 m
        have a2 := chi_orb hv h0' m
        have e2 := a1.2
        rw [h, a2.2, e, chi_neg a2.1, div_neg] at e2
        have h3 : chi (c, v ^ 2 ^ m) / v ^ 2 ^ m = 0 := by linear_combination e2 / 2
        exact div_ne_zero (chi_ne_zero a2.1) (pow_ne_zero _ h0') h3
  exact down _ (top _ le_rfl)

end MSet

end Mandelbrot
