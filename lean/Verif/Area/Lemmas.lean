import Verif.Area.Model
import Verif.PS.Bottcher

/-!
# The functions of /repo/area.cc are exact for exact kernels
-/

set_option linter.unusedSectionVars false

namespace Mandelbrot

open PowerSeries

namespace Ser

variable {K : Type} [Field K] [CharZero K] [Ldexp K] [LawfulLdexp K] [DecidableEq K]

theorem reduceKnown_has {x : Ser K} {n m : ℕ} {k : ℤ} {F : K⟦X⟧} (h : x.Has n F)
    (hm : (m : ℤ) = min (n : ℤ) (relu k)) :
    ∃ y : Ser K, x.reduceKnown k = .ok y ∧ y.limit = x.limit ∧ y.Has m F := by
  obtain ⟨y, e, h1, h2, h3, h4, h5⟩ := setKnown_spec h.wf (m := m)
  refine ⟨y, ?_, h1, ⟨h4, h2, h5.trans (h.agree.mono (by omega))⟩, fun hm' => ?_⟩
  · rw [reduceKnown, h.known, ← hm]; exact e
  · have := h.pos (by omega)
    rw [h3]; omega

theorem subSi2exp_has {z x y : Ser K} {nx ny n : ℕ} {F G : K⟦X⟧} (hx : x.Is nx F) (hy : y.Has ny G)
    (a b : ℤ) (hn : n = min nx ny) (hl : n ≤ z.limit) :
    ∃ z' : Ser K, z.subSi2exp a x b y = .ok z' ∧ z'.limit = z.limit ∧
      z'.Has n (C (a : K) * F - C ((2 : K) ^ b) * G) := by
  have hk : min x.known y.known = n := by rw [hx.known, hy.known, hn]; push_cast; rfl
  have hx0 := hx.wf.nonneg
  have hy0 := hy.wf.nonneg
  set nz := min (n : ℤ) (max x.nonzero y.nonzero) with hnz
  have e1 := setCounts_ok z (k := n) (z := nz) (by omega) (by omega) (by omega)
  have e : z.subSi2exp a x b y = .ok ((⟨z.limit, n, nz, z.data⟩ : Ser K).loopSet nz fun i =>
      (a : K) * (if (i : ℤ) < x.nonzero then x.data i else 0) -
        ldexp (if (i : ℤ) < y.nonzero then y.data i else 0) b) := by
    simp only [subSi2exp, hk, ← hnz, e1, bok, pok]
  refine ⟨_, e, rfl, ⟨⟨⟨?_, ?_, ?_⟩, rfl, ?_⟩, ?_⟩⟩
  · simp only [loopSet]; omega
  · simp only [loopSet]; omega
  · simp only [loopSet]; omega
  · intro i hi
    rw [coeff_ps]
    simp only [loopSet]
    have hFi := hx.agree i (by omega)
    have hGi := hy.agree i (by omega)
    rw [coeff_ps] at hFi hGi
    rw [map_sub, coeff_C_mul, coeff_C_mul, ← hFi, ← hGi]
    by_cases h : (i : ℤ) < nz
    · rw [if_pos h, if_pos h, LawfulLdexp.ldexp_eq]; ring
    · rw [if_neg h, if_neg (by omega), if_neg (by omega)]; simp
  · intro h0
    have := hy.pos (by omega)
    simp only [loopSet]; omega

theorem setScalar_has (x : Ser K) (n : ℕ) (a : K) (hl : n ≤ x.limit) :
    ∃ y : Ser K, x.setScalar n a = .ok y ∧ y.limit = x.limit ∧ y.Has n (C a) := by
  obtain ⟨y, e, h1, h2, h3, h4, h5⟩ := setScalar_spec x n a (by omega) (by omega)
  exact ⟨y, e, h1, h5, fun h => by rw [h3, if_pos h]⟩

end Ser

namespace Area

open Ser Bottcher

variable {K : Type} [Field K] [CharZero K] [Ldexp K] [LawfulLdexp K] [DecidableEq K]
variable {ker : Ker K} {N : ℕ}

theorem escapeStep_has (hker : ker.Exact N) (J : Junk K) {g dg : Ser K} {n dn ng nd : ℕ} {G D : K⟦X⟧}
    (hg : g.Is ng G) (hng : n ≤ ng) (hG : constantCoeff G = 0) (hdg : dg.Is nd D) (hnd : dn ≤ nd)
    (hdn : dn ≤ n) (i : ℕ) {st : EscState K} (hh : st.h.Has n (H G i)) (hhl : n ≤ st.h.limit)
    (hd : st.dh.Has dn (dH G D i)) (hdl : dn ≤ st.dh.limit) (htl : st.t.limit = n)
    (hsl : st.s.limit = n) (hN : n ≤ N := by omega) :
    ∃ st', escapeStep ker J g dg n dn (i + 1) st = .ok st' ∧ st'.h.Has n (H G (i + 1)) ∧
      st'.h.limit = st.h.limit ∧ st'.dh.Has dn (dH G D (i + 1)) ∧ st'.dh.limit = st.dh.limit ∧
      st'.t.limit = n ∧ st'.s.limit = n ∧ (2 ^ (i + 1) ≤ n → 2 ^ (i + 1) ≤ st'.h.nonzero) := by
  have hs := two_pow_sub_pos i
  have hp : ((2 : ℤ) ^ (i + 1)) - 1 = ((2 ^ (i + 1) - 1 : ℕ) : ℤ) := by
    rw [Nat.cast_sub Nat.one_le_two_pow]; push_cast; rfl
  have hp1 : (1 : ℤ) - 2 ^ (i + 1) = 1 - ((2 ^ (i + 1) : ℕ) : ℤ) := by push_cast; rfl
  have h2 : 2 ^ (i + 1) = (2 ^ (i + 1) - 1) + 1 := by omega
  set s := 2 ^ (i + 1) - 1 with hsdef
  -- t
  obtain ⟨t1, e1, l1, ht1⟩ := subSi2exp_has (z := st.t) (n := n) hg hh (1 - 2 ^ (i + 1)) ((i + 1 : ℕ) : ℤ)
    (by omega) (by omega)
  have eT : C (((1 - 2 ^ (i + 1) : ℤ)) : K) * G - C ((2 : K) ^ ((i + 1 : ℕ) : ℤ)) * H G i = T G i := by
    rw [T, zpow_natCast]; push_cast; rfl
  rw [eT] at ht1
  -- s
  obtain ⟨m, hm⟩ : ∃ m : ℕ, m = n - s := ⟨_, rfl⟩
  have hlow : (t1.low ((n : ℤ) - s)).Has m (T G i) := by
    have h := low_has ht1 m
    have e : t1.low ((n : ℤ) - s) = t1.low (m : ℤ) := by
      have : relu ((n : ℤ) - s) = relu (m : ℤ) := by unfold relu; omega
      simp only [Ser.low, this]
    rw [e]
    rwa [show min m n = m by omega] at h
  obtain ⟨s1, e2, l2, hs1⟩ := log1pExp_has hker (J.sub 0) (y := st.s) hs hlow
    (fun _ => constantCoeff_T hG i) (by omega)
  -- h
  obtain ⟨h1, e3, l3, hh1⟩ := highAddsub_has (n := n) (s := s) hh hs1.is (Or.inl rfl)
    (-((i + 1 : ℕ) : ℤ)) (by omega) (by omega)
  -- t
  obtain ⟨d, hd'⟩ : ∃ d : ℕ, d = dn - s := ⟨_, rfl⟩
  obtain ⟨t2, e4, l4, ht2⟩ := reduceKnown_has (k := (dn : ℤ) - s) (m := d) ht1 (by unfold relu; omega)
  obtain ⟨t3, e5, l5, ht3⟩ := highSub_has (n := d) (s := s) ht2 hs1.is (by omega) (by omega)
  have hc3 : constantCoeff (T G i - X ^ s * log1pExpS s (T G i)) = 0 := by
    rw [map_sub, constantCoeff_T hG, map_mul, map_pow, constantCoeff_X, zero_pow hs.ne']; simp
  -- s = exp t
  obtain ⟨s2, e6, l6, hs2⟩ := exp_has hker (J.sub 1) (y := s1) ht3.is (fun _ => hc3) (by omega)
  -- t
  have hdlow : ∀ {x : Ser K} {F : K⟦X⟧} {a : ℕ}, x.Has a F → d ≤ a → (x.low ((dn : ℤ) - s)).Has d F := by
    intro x F a hx ha
    have h := low_has hx d
    have e : x.low ((dn : ℤ) - s) = x.low (d : ℤ) := by
      have : relu ((dn : ℤ) - s) = relu (d : ℤ) := by unfold relu; omega
      simp only [Ser.low, this]
    rw [e]
    rwa [show min d a = d by omega] at h
  obtain ⟨t4, e7, l7, ht4⟩ := subSi2exp_has (z := t3) (n := d) hdg (hdlow hd (by omega))
    (1 - 2 ^ (i + 1)) ((i + 1 : ℕ) : ℤ) (by omega) (by omega)
  obtain ⟨t5, e8, l8, ht5⟩ := mul_has (z := t4) (n := d) hker.toExactMul hs2 (hdlow ht4 le_rfl)
    (by omega) (by omega)
  obtain ⟨d1, e9, l9, hd1⟩ := highAddsub_has (n := dn) (s := s) hd ht5.is (Or.inl rfl)
    (-((i + 1 : ℕ) : ℤ)) (by omega) (by omega)
  refine ⟨⟨h1, d1, t5, s2⟩, ?_, hh1.congr (Agree.of_eq ?_), l3, hd1.congr (Agree.of_eq ?_), l9, by simp only; omega,
    by simp only; omega, ?_⟩
  · simp only [escapeStep, hp, e1, bok, e2, highAddLdexp, e3, e4, e5, e6, e7, e8, e9, pok]
  · rw [H_succ, ← hsdef]
    push_cast
    rw [one_mul]
    ac_rfl
  · rw [dH, ← hsdef, zpow_natCast]
    push_cast
    rw [one_mul]
    ac_rfl
  · intro hle
    have c := (highAddsubLdexp_counts e3).2.2
    have hpos := hs1.pos (by omega)
    rw [hh.known, hs1.known, if_pos (by omega)] at c
    simp only
    rw [c]
    omega

theorem escapeLoop_has (hker : ker.Exact N) (J : Junk K) {g dg : Ser K} {n dn ng nd : ℕ} {G D : K⟦X⟧}
    (hg : g.Is ng G) (hng : n ≤ ng) (hG : constantCoeff G = 0) (hdg : dg.Is nd D) (hnd : dn ≤ nd)
    (hdn : dn ≤ n) {st : EscState K} (hh : st.h.Has n 0) (hhl : n ≤ st.h.limit)
    (hd : st.dh.Has dn 0) (hdl : dn ≤ st.dh.limit) (htl : st.t.limit = n)
    (hsl : st.s.limit = n) (k : ℕ) (hN : n ≤ N := by omega) :
    ∃ st', escapeLoop ker J g dg n dn k st = .ok st' ∧ st'.h.Has n (H G k) ∧
      st'.h.limit = st.h.limit ∧ st'.dh.Has dn (dH G D k) ∧ st'.dh.limit = st.dh.limit ∧
      st'.t.limit = n ∧ st'.s.limit = n ∧ (2 ^ k ≤ n → 2 ^ k ≤ st'.h.nonzero) := by
  induction k with
  | zero =>
    exact ⟨st, rfl, hh, rfl, hd, rfl, htl, hsl, fun h => by have := hh.pos (by omega); simpa using this⟩
  | succ k ih =>
    obtain ⟨st1, e1, h1, l1, d1, m1, t1, s1, _⟩ := ih
    obtain ⟨st2, e2, h2, l2, d2, m2, t2, s2, z2⟩ := escapeStep_has hker (J.sub k) hg hng hG hdg hnd hdn k h1
      (by omega) d1 (by omega) t1 s1
    exact ⟨st2, by rw [escapeLoop, e1, bok, e2], h2, by omega, d2, by omega, t2, s2, z2⟩

theorem escape_has (hker : ker.Exact N) (J : Junk K) {h dh g dg : Ser K} {n dn ng nd : ℕ} {G D : K⟦X⟧}
    (hg : g.Is ng G) (hng : n ≤ ng) (hG : constantCoeff G = 0) (hdg : dg.Is nd D) (hnd : dn ≤ nd)
    (hdn : dn ≤ n) (hhl : n ≤ h.limit) (hdl : dn ≤ dh.limit) (k : ℕ) (hN : n ≤ N := by omega) :
    ∃ h' dh', escape ker J h dh k g dg n dn = .ok (h', dh') ∧ h'.Has n (H G k) ∧
      h'.limit = h.limit ∧ dh'.Has dn (dH G D k) ∧ dh'.limit = dh.limit ∧
      (2 ^ k ≤ n → 2 ^ k ≤ h'.nonzero) := by
  obtain ⟨h1, e1, l1, hh1⟩ := setScalar_has h n (0 : K) hhl
  obtain ⟨d1, e2, l2, hd1⟩ := setScalar_has dh dn (0 : K) hdl
  rw [map_zero] at hh1 hd1
  obtain ⟨st, e3, a1, a2, a3, a4, _, _, a5⟩ := escapeLoop_has hker (J.sub 2) hg hng hG hdg hnd hdn
    (st := ⟨h1, d1, Ser.new n (J [0]), Ser.new n (J [1])⟩) hh1 (by simp only; omega) hd1 (by simp only; omega)
    (new_limit _ _) (new_limit _ _) k
  exact ⟨st.h, st.dh, by simp only [escape, e1, bok, e2, e3, pok], a1, by simp only at a2; omega, a3,
    by simp only at a4; omega, a5⟩

theorem implicit_has (hker : ker.Exact N) (J : Junk K) {F dF g dg : Ser K} {n dn ng nd : ℕ} {G D : K⟦X⟧}
    (hg : g.Is ng G) (hng : n ≤ ng) (hG : constantCoeff G = 0) (hdg : dg.Is nd D) (hnd : dn ≤ nd)
    (hdn : dn ≤ n) (hhl : n ≤ F.limit) (hdl : dn ≤ dF.limit) (k : ℕ) (hN : n ≤ N := by omega) :
    ∃ F' dF', implicit ker J F dF k g dg n dn = .ok (F', dF') ∧ F'.Has n (H G k + G) ∧
      F'.limit = F.limit ∧ dF'.Has dn (dH G D k + D) ∧ dF'.limit = dF.limit ∧
      (2 ^ k ≤ n → 2 ^ k ≤ F'.nonzero) := by
  obtain ⟨h1, d1, e1, a1, a2, a3, a4, a5⟩ := escape_has hker J hg hng hG hdg hnd hdn hhl hdl k
  obtain ⟨F1, e2, b1, b2⟩ := addAssign_has (n := n) a1 hg (by omega) (by omega)
  obtain ⟨F2, e3, c1, c2⟩ := addAssign_has (n := dn) a3 hdg (by omega) (by omega)
  refine ⟨F1, F2, by simp only [implicit, e1, bok, e2, e3, pok], b2, by omega, c2, by omega, fun hk => ?_⟩
  have hz := (highAddsubLdexp_counts e2).2.2
  rw [a1.known, hg.known] at hz
  have := a5 hk
  have hk' : (2 : ℤ) ^ k ≤ n := by exact_mod_cast hk
  rw [hz]
  omega

theorem pow_half (k : ℕ) : ((2 ^ (k + 1) : ℕ) : ℤ) / 2 = ((2 ^ k : ℕ) : ℤ) := by
  rw [pow_succ]; omega

/-- The first pass: one Newton step. -/
theorem bottcherPass_first (hker : ker.Exact N) (J : Junk K) {k : ℕ} {g : Ser K} {G : K⟦X⟧}
    (hg : g.Has (2 ^ k) G) (hG : constantCoeff G = 0) (hs : Solves k G) (hN : 2 ^ (k + 1) ≤ N := by omega) :
    ∃ g' G', bottcherPass ker J (k + 1) (2 ^ (k + 1)) false g = .ok g' ∧ g'.limit = 2 ^ (k + 1) ∧
      g'.Has (2 ^ (k + 1)) G' ∧ Agree (2 ^ k) G' G ∧ Solves (k + 1) G' := by
  have hk1 : 2 ^ (k + 1) = 2 ^ k + 2 ^ k := by rw [pow_succ]; omega
  have hkp := Nat.two_pow_pos k
  have hP : ((2 : ℤ) ^ (k + 1)) = ((2 ^ (k + 1) : ℕ) : ℤ) := by push_cast; rfl
  obtain ⟨g1, e1, l1, hg1⟩ := assign_has (x := Ser.new ((2 ^ (k + 1) : ℕ) : ℤ) (J [0])) hg
    (by rw [new_limit]; omega)
  rw [new_limit] at l1
  have hc : constantCoeff g1.ps = 0 := by rw [hg1.agree.constantCoeff_eq hkp, hG]
  obtain ⟨g2, e2, l2, hg2⟩ := setKnown_has hg1 hkp (Nat.two_pow_pos (k + 1))
  obtain ⟨dg, e3, l3, hdg⟩ := setScalar_has (Ser.new ((2 ^ k : ℕ) : ℤ) (J [1])) (2 ^ k) (1 : K)
    (by rw [new_limit])
  rw [new_limit] at l3
  rw [map_one] at hdg
  obtain ⟨F, dF, e4, hF, l4, hdF, l5, z4⟩ := implicit_has hker (J.sub 2) (n := 2 ^ (k + 1)) (dn := 2 ^ k)
    (F := Ser.new ((2 ^ (k + 1) : ℕ) : ℤ) (J [3])) (dF := Ser.new ((2 ^ k : ℕ) : ℤ) (J [4])) hg2.is le_rfl hc
    hdg.is le_rfl (by omega) (by rw [new_limit]) (by rw [new_limit]) (k + 1)
  have hs1 : Solves k g1.ps := hs.congr hG hg1.agree
  obtain ⟨R, hR, eR⟩ := high_is' hF (m0 := 2 ^ k) (by omega) hs1.residual
  rw [show 2 ^ (k + 1) - 2 ^ k = 2 ^ k by omega] at hR
  have hRh : (F.high ((2 ^ k : ℕ) : ℤ)).Has (2 ^ k) R := by
    refine ⟨hR, fun _ => ?_⟩
    have := z4 le_rfl
    rw [high_nonzero]
    have h2 : ((2 : ℤ) ^ (k + 1)) = ((2 ^ k + 2 ^ k : ℕ) : ℤ) := by rw [← hk1, hP]
    unfold relu
    omega
  obtain ⟨dg2, e5, l6, hdg2⟩ := div_has (n := 2 ^ k) hker (J.sub 7) (y := dg) hRh hdF (by omega)
    (fun _ => by rw [constantCoeff_dF]; exact one_ne_zero) (by omega)
  obtain ⟨g3, e6, l7, hg3⟩ := highSub_has (n := 2 ^ (k + 1)) (s := 2 ^ k) hg2 hdg2.is (by omega) (by omega)
  have hN := newton_solves hc hs1
  have hfin : Agree (2 ^ (k + 1)) (g1.ps - X ^ 2 ^ k * (R * (dH g1.ps 1 (k + 1) + 1)⁻¹))
      (g1.ps - (H g1.ps (k + 1) + g1.ps) * (dH g1.ps 1 (k + 1) + 1)⁻¹) := by
    rw [← mul_assoc, eR]
    exact Agree.rfl'.sub (hF.agree.mul Agree.rfl')
  refine ⟨g3, g1.ps - (H g1.ps (k + 1) + g1.ps) * (dH g1.ps 1 (k + 1) + 1)⁻¹, ?_, ?_, hg3.congr hfin, ?_, hN⟩
  · rw [hP]
    simp only [bottcherPass, Ser.copy, pow_half, e1, bok, e2, e3, e4, e5, e6, Bool.false_eq_true,
      if_false]
  · rw [hP]; omega
  · have h0 := (Agree.rfl' (F := g1.ps)).sub (hs1.residual.mul (Agree.rfl' (F := (dH g1.ps 1 (k + 1) + 1)⁻¹)))
    rw [zero_mul, sub_zero] at h0
    exact h0.trans hg1.agree

/-- The refinement pass changes nothing when the arithmetic is exact. -/
theorem bottcherPass_refine (hker : ker.Exact N) (J : Junk K) {k : ℕ} {g : Ser K} {G : K⟦X⟧}
    (hg : g.Has (2 ^ (k + 1)) G) (hG : constantCoeff G = 0) (hs : Solves (k + 1) G) (hN : 2 ^ (k + 1) ≤ N := by omega) :
    ∃ g', bottcherPass ker J (k + 1) (2 ^ (k + 1)) true g = .ok g' ∧ g'.limit = 2 ^ (k + 1) ∧
      g'.Has (2 ^ (k + 1)) G := by
  have hk1 : 2 ^ (k + 1) = 2 ^ k + 2 ^ k := by rw [pow_succ]; omega
  have hkp := Nat.two_pow_pos (k + 1)
  have hP : ((2 : ℤ) ^ (k + 1)) = ((2 ^ (k + 1) : ℕ) : ℤ) := by push_cast; rfl
  obtain ⟨g1, e1, l1, hg1⟩ := assign_has (x := Ser.new ((2 ^ (k + 1) : ℕ) : ℤ) (J [0])) hg
    (by rw [new_limit])
  rw [new_limit] at l1
  have hc : constantCoeff g1.ps = 0 := by rw [hg1.agree.constantCoeff_eq hkp, hG]
  obtain ⟨g2, e2, l2, hg2⟩ := setKnown_has hg1 hkp hkp
  obtain ⟨dg, e3, l3, hdg⟩ := setScalar_has (Ser.new ((2 ^ (k + 1) : ℕ) : ℤ) (J [1])) (2 ^ (k + 1)) (1 : K)
    (by rw [new_limit])
  rw [new_limit] at l3
  rw [map_one] at hdg
  obtain ⟨F, dF, e4, hF, l4, hdF, l5, _⟩ := implicit_has hker (J.sub 2) (n := 2 ^ (k + 1)) (dn := 2 ^ (k + 1))
    (F := Ser.new ((2 ^ (k + 1) : ℕ) : ℤ) (J [3])) (dF := Ser.new ((2 ^ (k + 1) : ℕ) : ℤ) (J [4])) hg2.is le_rfl
    hc hdg.is le_rfl le_rfl (by rw [new_limit]) (by rw [new_limit]) (k + 1)
  rw [new_limit] at l4
  obtain ⟨F2, dF2, e5, hF2, l6, _, _, _⟩ := implicit_has hker (J.sub 5) (n := 2 ^ (k + 1)) (dn := 0)
    (F := F) (dF := Ser.new 0 (J [6])) hg2.is le_rfl
    hc hdg.is (Nat.zero_le _) (Nat.zero_le _) (by omega) (by simp [Ser.new, relu]) (k + 1)
  have hs1 : Solves (k + 1) g1.ps := hs.congr hG hg1.agree
  obtain ⟨dg2, e6, l7, hdg2⟩ := div_has (n := 2 ^ (k + 1)) hker (J.sub 7) (y := dg) hF2 hdF (by omega)
    (fun _ => by rw [constantCoeff_dF]; exact one_ne_zero) (by omega)
  have h0 : Agree (2 ^ (k + 1)) ((H g1.ps (k + 1) + g1.ps) * (dH g1.ps 1 (k + 1) + 1)⁻¹) 0 := by
    have h0 := Agree.mul (hs1 : Agree _ _ _) (Agree.rfl' (F := (dH g1.ps 1 (k + 1) + 1)⁻¹))
    rwa [zero_mul] at h0
  obtain ⟨g3, e7, l8, hg3⟩ := newtonSub_has (m0 := 2 ^ k) hg2 hdg2 (by omega) (h0.mono (by omega)) (by omega)
  refine ⟨g3, ?_, ?_, hg3.congr ?_⟩
  · rw [hP]
    simp only [bottcherPass, Ser.copy, pow_half, e1, bok, e2, e3, e4, if_true]
    rw [show ((0 : ℕ) : ℤ) = 0 from rfl] at e5
    simp only [e5, bok, e6, e7]
  · rw [hP]; omega
  · have h1 := (Agree.rfl' (F := g1.ps)).sub h0
    rw [sub_zero] at h1
    exact h1.trans hg1.agree

end Area

end Mandelbrot

namespace Mandelbrot

open PowerSeries

namespace Area

open Ser Bottcher

variable {K : Type} [Field K] [CharZero K] [Ldexp K] [LawfulLdexp K] [DecidableEq K]
variable {ker : Ker K} {N : ℕ}

theorem toU64_emod {a : ℤ} (h1 : -2 ^ 63 ≤ a) (h2 : a < 2 ^ 63) : toU64 a = a % 2 ^ 64 := by
  unfold toU64; split_ifs <;> omega

theorem countrZeroI64_pow {k : ℕ} : countrZeroI64 (2 ^ k) = k := by
  have h : toU64 ((2 : ℤ) ^ k) = ((2 ^ k : ℕ) : ℤ) := by
    rw [toU64_of_nonneg (by positivity)]; push_cast; rfl
  rw [countrZeroI64, h, Int.toNat_natCast, countrZero64, if_neg (Nat.two_pow_pos k).ne']
  have : Fact (Nat.Prime 2) := ⟨Nat.prime_two⟩
  exact padicValNat.prime_pow k

theorem knownToK_pow {k : ℕ} (hk : k ≤ 62) : knownToK (2 ^ k) = .ok k := by
  unfold knownToK
  rw [countrZeroI64_pow]
  simp only [if_neg (show ¬ k ≥ 64 by omega), if_neg (show ¬ k = 63 by omega), pok]
  rfl

/-- One step with exact arithmetic. -/
theorem bottcherStep_has (hker : ker.Exact N) (J : Junk K) (accept : ℕ → Bool → Ser K → Bool)
    {k : ℕ} (hk : k + 1 ≤ 30) {g : Ser K} {G : K⟦X⟧}
    (hg : g.Has (2 ^ k) G) (hG : constantCoeff G = 0) (hs : Solves k G) (hN : 2 ^ (k + 1) ≤ N := by omega) :
    (∃ f' b, accept (k + 1) b f' = false ∧ bottcherStep ker J accept g = .error .assertion) ∨
    ∃ g' f' G', bottcherStep ker J accept g = .ok (g', f') ∧ g'.limit = 2 ^ (k + 1) ∧
      f'.limit = 2 ^ (k + 1) ∧ g'.Has (2 ^ (k + 1)) G' ∧ Agree (2 ^ k) G' G ∧ Solves (k + 1) G' ∧
      f'.Has (2 ^ (k + 1)) (E G') := by
  have hkp := Nat.two_pow_pos k
  have hP : ((2 : ℤ) ^ (k + 1)) = ((2 ^ (k + 1) : ℕ) : ℤ) := by push_cast; rfl
  have hkk : g.known = 2 ^ k := by rw [hg.known]; push_cast; rfl
  have e0 : knownToK g.known = .ok k := by rw [hkk]; exact knownToK_pow (by omega)
  have e1 : shl32 (k + 1) = .ok (2 ^ (k + 1)) := by
    rw [shl32, if_neg (by omega), if_neg (by omega)]
  obtain ⟨g1, G1, e2, l1, hg1, ha, hs1⟩ := bottcherPass_first hker (J.sub 0) hg hG hs
  have hG1 : constantCoeff G1 = 0 := by rw [ha.constantCoeff_eq hkp, hG]
  obtain ⟨f1, e3, l2, hf1⟩ := exp_has hker (J.sub 1) (y := Ser.new ((2 : ℤ) ^ (k + 1)) (J [2])) hg1.is
    (fun _ => hG1) (by rw [hP, new_limit])
  obtain ⟨g2, e4, l3, hg2⟩ := bottcherPass_refine hker (J.sub 3) hg1 hG1 hs1
  obtain ⟨f2, e5, l4, hf2⟩ := exp_has hker (J.sub 4) (y := Ser.new ((2 : ℤ) ^ (k + 1)) (J [5])) hg2.is
    (fun _ => hG1) (by rw [hP, new_limit])
  by_cases h1 : accept (k + 1) false f1 = true
  · by_cases h2 : accept (k + 1) true f2 = true
    · refine Or.inr ⟨g2, f2, G1, ?_, l3, ?_, hg2, ha, hs1, hf2⟩
      · simp only [bottcherStep, e0, bok, e1, e2, e3, slowAssert_true h1, e4, e5, slowAssert_true h2, pok]
      · rw [l4, hP, new_limit]
    · refine Or.inl ⟨f2, true, by simpa using h2, ?_⟩
      simp only [bottcherStep, e0, bok, e1, e2, e3, slowAssert_true h1, e4, e5, slowAssert_false h2, berr]
  · refine Or.inl ⟨f1, false, by simpa using h1, ?_⟩
    simp only [bottcherStep, e0, bok, e1, e2, e3, slowAssert_false h1, berr]

theorem bottcherBase_has (J : Junk K) :
    ∃ g, bottcherBase J = .ok g ∧ g.limit = 1 ∧ g.Has (2 ^ 0) (0 : K⟦X⟧) := by
  obtain ⟨g, e, l, h⟩ := setScalar_has (Ser.new 1 (J [0])) 1 (0 : K) (by simp [Ser.new, relu])
  rw [map_zero] at h
  exact ⟨g, e, by rw [l]; simp [Ser.new, relu], h⟩

end Area

end Mandelbrot
