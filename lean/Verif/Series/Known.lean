import Verif.Series.HistoryLemmas
import Verif.Series.NewtonRule

/-!
# How many terms the series functions return

For any arithmetic: when a function returns, the number of known terms of its result depends only on the numbers of known
terms of its arguments.
-/

set_option linter.unusedSectionVars false

namespace Mandelbrot

section Newton

variable {σ : Type} {step : ℤ → ℤ → Bool → σ → Res σ}

/-- The step with failure made a state. -/
def optStep (step : ℤ → ℤ → Bool → σ → Res σ) (m0 m : ℤ) (r : Bool) : Option σ → Res (Option σ)
  | none => .ok none
  | some s => match step m0 m r s with
    | .ok s' => .ok (some s')
    | .error _ => .ok none

theorem optStep_loop {n : ℤ} : ∀ (k : ℕ) (n0 : ℤ) (s s' : σ), newtonLoop step n k n0 s = .ok s' →
    newtonLoop (optStep step) n k n0 (some s) = .ok (some s') := by
  intro k
  induction k with
  | zero => intro n0 s s' h; cases h; rfl
  | succ k ih =>
    intro n0 s s' h
    obtain ⟨s1, e1, h⟩ := Ser.bind_eq_ok h
    rw [newtonLoop]
    simp only [optStep, e1]
    rw [bok]
    exact ih _ _ _ h

/-- `newton_iterate`: what holds when it returns. -/
theorem newtonIterate_post {n : ℕ} (P : ℕ → σ → Prop)
    (hstep : ∀ (m0 m : ℕ) (r : Bool) (s s' : σ), 0 < m0 → m0 ≤ m → m ≤ 2 * m0 → m ≤ n →
      P (if r then m else m0) s → step m0 m r s = .ok s' → P m s')
    {n0 : ℕ} {s s' : σ} (hn : n0 ≤ n) (h0 : n0 < n → 0 < n0) (hP : P n0 s) (e : newtonIterate step n0 n s = .ok s') :
    P n s' := by
  obtain ⟨t, e', ht⟩ := newtonIterate_rule (optStep step) n (fun m t => ∀ s, t = some s → P m s) (fun m0 m r t h1 h2 h3 h4 hP => by
    cases t with
    | none => exact ⟨none, rfl, fun s h => by cases h⟩
    | some s =>
      simp only [optStep]
      cases e : step m0 m r s with
      | error _ => exact ⟨none, rfl, fun s h => by cases h⟩
      | ok s' => exact ⟨some s', rfl, fun s'' h => by cases h; exact hstep m0 m r s s' h1 h2 h3 h4 (hP s rfl) e⟩)
    n0 (some s) hn h0 (fun s' h => by cases h; exact hP)
  unfold newtonIterate at e e'
  split_ifs at e e' with hc
  · cases e; cases e'; exact ht _ rfl
  · obtain ⟨_, e1, e⟩ := Ser.bind_eq_ok e
    obtain ⟨k, e2, e⟩ := Ser.bind_eq_ok e
    rw [e1, bok, e2, bok, optStep_loop _ _ _ _ e] at e'
    cases e'
    exact ht _ rfl

end Newton

namespace Ser

variable {K : Type}

theorem setCounts_known {x r : Ser K} {k z : ℤ} (h : x.setCounts k z = .ok r) : r.known = k := by
  obtain ⟨_, _, h⟩ := bind_eq_ok h; cases h; rfl

theorem setKnown_known {x r : Ser K} {k : ℤ} (h : x.setKnown k = .ok r) : r.known = k ∧ 0 ≤ k := by
  obtain ⟨_, h0, h⟩ := bind_eq_ok h; cases h; exact ⟨rfl, slowAssert_ok h0⟩

theorem reduceKnown_known {x r : Ser K} {k : ℤ} (h : x.reduceKnown k = .ok r) : r.known = min x.known (relu k) :=
  (setKnown_known h).1

theorem assign_known {x g r : Ser K} (h : x.assign g = .ok r) : r.known = g.known := by
  obtain ⟨_, _, h⟩ := bind_eq_ok h; cases h; rfl

theorem setScalar_known {x r : Ser K} {k : ℤ} {a : K} (h : x.setScalar k a = .ok r) : r.known = relu k := by
  obtain ⟨_, _, h⟩ := bind_eq_ok h; cases h; rfl

theorem known_low (x : Ser K) (n : ℤ) : (x.low n).known = min (relu n) x.known := rfl

theorem known_high (x : Ser K) (n : ℤ) : (x.high n).known = relu (x.known - relu n) := rfl

variable [Zero K] [One K] [Add K] [Sub K] [Neg K] [Mul K] [Div K] [IntCast K] [Ldexp K] [DecidableEq K]

theorem addScalar_known {x r : Ser K} {a : K} (h : x.addScalar a = .ok r) : r.known = x.known := by
  obtain ⟨_, _, h⟩ := bind_eq_ok h; cases h; rfl

theorem addsub_known {y x r : Ser K} {sign b s : ℤ} (h : y.highAddsubLdexp sign b s x = .ok r) :
    r.known = min y.known (x.known + s) := by
  obtain ⟨_, _, h⟩ := bind_eq_ok h
  exact setCounts_known h

theorem fill_known {y r : Ser K} {k z : ℤ} {f : Ser K → ℕ → K}
    (h : (y.setCounts k z >>= fun y => (pure (y.loopSet z (f y)) : Res (Ser K))) = .ok r) : r.known = k := by
  obtain ⟨y1, e1, h⟩ := bind_eq_ok h; cases h
  exact setCounts_known (r := y1) e1

theorem neg_known {y x r : Ser K} (h : neg y x = .ok r) : r.known = x.known := fill_known h

theorem derivativeShift_known {y x r : Ser K} {s : ℤ} (h : derivativeShift y x s = .ok r) : r.known = x.known := fill_known h

theorem integralShift_known {y x r : Ser K} {s : ℤ} (h : integralShift y x s = .ok r) : r.known = x.known := fill_known h

theorem ldexpSer_known {y x r : Ser K} {s : ℤ} (h : ldexpSer y x s = .ok r) : r.known = x.known := fill_known h

variable {ker : Ker K}

theorem mul_known {z x y r : Ser K} (h : mul ker z x y = .ok r) : r.known = min x.known y.known := by
  obtain ⟨z1, e1, h⟩ := bind_eq_ok h
  obtain ⟨f, _, h⟩ := bind_eq_ok h
  cases h
  exact setCounts_known (r := z1) e1

theorem sqr_known {y x r : Ser K} (h : sqr ker y x = .ok r) : r.known = x.known := by
  obtain ⟨z1, e1, h⟩ := bind_eq_ok h
  obtain ⟨f, _, h⟩ := bind_eq_ok h
  cases h
  exact setCounts_known (r := z1) e1

theorem mul1p_known {z x y r : Ser K} {s : ℤ} (h : mul1p ker z x y s = .ok r) :
    r.known = min x.known (y.known + s) ∧ 0 < s := by
  obtain ⟨_, h0, h⟩ := bind_eq_ok h
  obtain ⟨z1, e1, h⟩ := bind_eq_ok h
  obtain ⟨f, _, h⟩ := bind_eq_ok h
  cases h
  exact ⟨setCounts_known (r := z1) e1, slowAssert_ok h0⟩

/-- The base cases return between one and all terms. -/
structure _root_.Mandelbrot.Ker.KnownBases (ker : Ker K) : Prop where
  invBase : ∀ {y x r : Ser K}, 0 < x.known → ker.invBase y x = .ok r → 0 < r.known ∧ r.known ≤ x.known
  expBase : ∀ {y x r : Ser K}, 0 < x.known → ker.expBase y x = .ok r → 0 < r.known ∧ r.known ≤ x.known

/-- From a Newton iteration that sets the known count in every step. -/
theorem newton_known {σ : Type} {step : ℤ → ℤ → Bool → σ → Res σ} (get : σ → Ser K) {n0 n : ℤ} {s s' : σ}
    (h0 : 0 ≤ n0) (hn : n0 ≤ n) (h1 : n0 < n → 0 < n0) (hs : (get s).known = n0)
    (hstep : ∀ (m0 m : ℤ) (r : Bool) (s s' : σ), 0 < m0 → m0 ≤ m → m ≤ n → step m0 m r s = .ok s' → (get s').known = m)
    (e : newtonIterate step n0 n s = .ok s') : (get s').known = n := by
  obtain ⟨a, rfl⟩ := Int.eq_ofNat_of_zero_le h0
  obtain ⟨b, rfl⟩ := Int.eq_ofNat_of_zero_le (h0.trans hn)
  exact newtonIterate_post (fun m s => (get s).known = m)
    (fun m0 m r s s' h1 h2 _ h4 _ e => hstep m0 m r s s' (by omega) (by omega) (by omega) e)
    (by omega) (by omega) hs e

theorem inv_known (hker : ker.KnownBases) {J : Junk K} {y x r : Ser K} (hx : 0 ≤ x.known) (h : inv ker J y x = .ok r) :
    r.known = x.known := by
  unfold inv at h
  simp only at h
  split_ifs at h with h0
  · cases h; exact h0.symm
  obtain ⟨_, _, h⟩ := bind_eq_ok h
  obtain ⟨y0, e0, h⟩ := bind_eq_ok h
  obtain ⟨st, e, h⟩ := bind_eq_ok h
  cases h
  have hb := hker.invBase (by omega) e0
  refine newton_known Prod.fst (by omega) hb.2 (by omega) rfl (fun m0 m r s s' h1 h2 h3 e => ?_) e
  obtain ⟨y, dy⟩ := s
  obtain ⟨y1, e1, e⟩ := bind_eq_ok e
  obtain ⟨d1, e2, e⟩ := bind_eq_ok e
  obtain ⟨d2, e3, e⟩ := bind_eq_ok e
  obtain ⟨d3, e4, e⟩ := bind_eq_ok e
  obtain ⟨y2, e5, e⟩ := bind_eq_ok e
  cases e
  have k1 := (setKnown_known e1).1
  have k2 := mul_known e2
  have k3 := addScalar_known e3
  have k4 := mul_known e4
  have k5 := addsub_known e5
  rw [known_high] at k5
  simp only [relu] at k5 ⊢
  omega

theorem inv1p_known {J : Junk K} {y x r : Ser K} {s : ℤ} (hx : 0 ≤ x.known) (h : inv1p ker J y x s = .ok r) :
    r.known = x.known := by
  unfold inv1p at h
  simp only at h
  split_ifs at h with h0
  · cases h; exact h0.symm
  obtain ⟨_, hs, h⟩ := bind_eq_ok h
  have hs := slowAssert_ok hs
  obtain ⟨y0, e0, h⟩ := bind_eq_ok h
  obtain ⟨st, e, h⟩ := bind_eq_ok h
  cases h
  have hb := neg_known e0
  rw [known_low] at hb
  simp only [relu] at hb
  refine newton_known (n0 := y0.known) Prod.fst (by omega) (by omega) (by omega) rfl (fun m0 m r t s' h1 h2 h3 e => ?_) e
  obtain ⟨y, dy⟩ := t
  obtain ⟨y1, e1, e⟩ := bind_eq_ok e
  obtain ⟨d1, e2, e⟩ := bind_eq_ok e
  obtain ⟨d2, e3, e⟩ := bind_eq_ok e
  obtain ⟨d3, e4, e⟩ := bind_eq_ok e
  obtain ⟨y2, e5, e⟩ := bind_eq_ok e
  cases e
  have k1 := (setKnown_known e1).1
  have k2 := (mul1p_known e2).1
  have k3 := addsub_known e3
  have k4 := (mul1p_known e4).1
  have k5 := addsub_known e5
  rw [known_high] at k5
  simp only [relu] at k5 ⊢
  omega

theorem div_known (hker : ker.KnownBases) {J : Junk K} {y a b r : Ser K} (ha : 0 ≤ a.known) (hb : 0 ≤ b.known)
    (h : div ker J y a b = .ok r) : r.known = min a.known b.known := by
  obtain ⟨i, e1, h⟩ := bind_eq_ok h
  obtain ⟨y1, e2, h⟩ := bind_eq_ok h
  obtain ⟨d1, e3, h⟩ := bind_eq_ok h
  obtain ⟨d2, e4, h⟩ := bind_eq_ok h
  obtain ⟨d3, e5, h⟩ := bind_eq_ok h
  have k1 := inv_known hker (by rw [known_low]; simp only [relu]; omega) e1
  rw [known_low] at k1
  have k2 := mul_known e2
  have k3 := mul_known e3
  have k4 := addsub_known e4
  have k5 := mul_known e5
  have k6 := addsub_known h
  simp only [relu] at k1
  omega

theorem div1p_known {J : Junk K} {y a b r : Ser K} {s : ℤ} (hb : 0 ≤ b.known)
    (h : div1p ker J y a b s = .ok r) : r.known = min a.known (b.known + s) := by
  obtain ⟨_, hs, h⟩ := bind_eq_ok h
  have hs := slowAssert_ok hs
  obtain ⟨i, e1, h⟩ := bind_eq_ok h
  obtain ⟨y1, e2, h⟩ := bind_eq_ok h
  obtain ⟨d1, e3, h⟩ := bind_eq_ok h
  obtain ⟨d2, e4, h⟩ := bind_eq_ok h
  obtain ⟨d3, e5, h⟩ := bind_eq_ok h
  have k1 := inv1p_known (by rw [known_low]; simp only [relu]; omega) e1
  rw [known_low] at k1
  have k2 := (mul1p_known e2).1
  have k3 := (mul1p_known e3).1
  have k4 := addsub_known e4
  have k5 := (mul1p_known e5).1
  have k6 := addsub_known h
  simp only [relu] at k1
  omega

theorem log_known (hker : ker.KnownBases) {J : Junk K} {y x r : Ser K} (hx : 0 ≤ x.known) (h : log ker J y x = .ok r) :
    r.known = x.known := by
  have main : ∀ {d y1 : Ser K}, (new x.known (J [0])).derivativeShift x 0 = .ok d → div ker (J.sub 1) y d x = .ok y1 →
      integralShift y1 y1 0 = .ok r → r.known = x.known := by
    intro d y1 e1 e2 e3
    have k1 := derivativeShift_known e1
    have k2 := div_known hker (by omega) hx e2
    have k3 := integralShift_known e3
    omega
  unfold log at h
  simp only at h
  split_ifs at h with h0
  · cases h; exact h0.symm
  · obtain ⟨_, _, h⟩ := bind_eq_ok h
    obtain ⟨_, _, h⟩ := bind_eq_ok h
    obtain ⟨d, e1, h⟩ := bind_eq_ok h
    obtain ⟨y1, e2, h⟩ := bind_eq_ok h
    exact main e1 e2 h
  · obtain ⟨_, _, h⟩ := bind_eq_ok h
    obtain ⟨d, e1, h⟩ := bind_eq_ok h
    obtain ⟨y1, e2, h⟩ := bind_eq_ok h
    exact main e1 e2 h

theorem log1p_known {J : Junk K} {y x r : Ser K} {s : ℤ} (hx : 0 ≤ x.known) (h : log1p ker J y x s = .ok r) :
    r.known = x.known := by
  unfold log1p at h
  simp only at h
  split_ifs at h with h0
  · cases h; exact h0.symm
  obtain ⟨_, hs, h⟩ := bind_eq_ok h
  have hs := slowAssert_ok hs
  obtain ⟨d, e1, h⟩ := bind_eq_ok h
  obtain ⟨y1, e2, h⟩ := bind_eq_ok h
  have k1 := derivativeShift_known e1
  have k2 := div1p_known hx e2
  have k3 := integralShift_known h
  omega

theorem exp_known (hker : ker.KnownBases) {J : Junk K} {y x r : Ser K} (hx : 0 ≤ x.known) (h : exp ker J y x = .ok r) :
    r.known = x.known := by
  have main : ∀ {y0 : Ser K} {st : Ser K × Ser K}, x.known ≠ 0 → ker.expBase y x = .ok y0 →
      newtonIterate (expStep ker (J.sub 1) x) y0.known x.known (y0, new x.known (J [0])) = .ok st →
      st.1.known = x.known := by
    intro y0 st h0 e0 e
    have hb := hker.expBase (by omega) e0
    refine newton_known Prod.fst (by omega) hb.2 (by omega) rfl (fun m0 m r s s' h1 h2 h3 e => ?_) e
    obtain ⟨y, dy⟩ := s
    obtain ⟨y1, e1, e⟩ := bind_eq_ok e
    obtain ⟨d1, e2, e⟩ := bind_eq_ok e
    obtain ⟨d2, e3, e⟩ := bind_eq_ok e
    obtain ⟨d3, e4, e⟩ := bind_eq_ok e
    obtain ⟨y2, e5, e⟩ := bind_eq_ok e
    cases e
    have k1 := (setKnown_known e1).1
    have k2 := log_known hker (by omega) e2
    have k3 := addsub_known e3
    have k4 := mul_known e4
    have k5 := addsub_known e5
    rw [known_high] at k5
    simp only [relu] at k5 ⊢
    omega
  unfold exp at h
  simp only at h
  split_ifs at h with h0
  · cases h; exact h0.symm
  · obtain ⟨_, _, h⟩ := bind_eq_ok h
    obtain ⟨y0, e1, h⟩ := bind_eq_ok h
    obtain ⟨st, e2, h⟩ := bind_eq_ok h
    cases h
    exact main h0 e1 e2
  · obtain ⟨y0, e1, h⟩ := bind_eq_ok h
    obtain ⟨st, e2, h⟩ := bind_eq_ok h
    cases h
    exact main h0 e1 e2

theorem expm1_known {J : Junk K} {y x r : Ser K} {a s : ℤ} (hx : 0 ≤ x.known) (h : expm1 ker J y x a s = .ok r) :
    r.known = x.known := by
  have main : ∀ {y0 : Ser K} {st : Ser K × Ser K}, 0 < s → y0.known = min (relu s) x.known →
      newtonIterate (expm1Step ker (J.sub 1) x a s) y0.known x.known (y0, new x.known (J [0])) = .ok st →
      st.1.known = x.known := by
    intro y0 st hs hb e
    simp only [relu] at hb
    refine newton_known (n0 := y0.known) Prod.fst (by omega) (by omega) (by omega) rfl (fun m0 m r t s' h1 h2 h3 e => ?_) e
    obtain ⟨y, dy⟩ := t
    obtain ⟨y1, e1, e⟩ := bind_eq_ok e
    obtain ⟨d1, e2, e⟩ := bind_eq_ok e
    have k1 := (setKnown_known e1).1
    have k2 := log1p_known (by omega) e2
    have tail : ∀ {d2 : Ser K}, d2.known = m → (do
        let dy ← mul1p ker d2 d2 y1 s
        let y ← y1.highSub m0 (dy.high m0)
        return (y, dy)) = .ok s' → s'.1.known = m := by
      intro d2 k3 e
      obtain ⟨d3, e4, e⟩ := bind_eq_ok e
      obtain ⟨y2, e5, e⟩ := bind_eq_ok e
      cases e
      have k4 := (mul1p_known e4).1
      have k5 := addsub_known e5
      rw [known_high] at k5
      simp only [relu] at k5 ⊢
      omega
    simp only at e
    split_ifs at e
    · obtain ⟨d2, e3, e⟩ := bind_eq_ok e
      have k3 := addsub_known e3
      exact tail (by omega) e
    · obtain ⟨d2, e3, e⟩ := bind_eq_ok e
      have k3 := addsub_known e3
      exact tail (by omega) e
  unfold expm1 at h
  simp only at h
  obtain ⟨_, hs, h⟩ := bind_eq_ok h
  have hs := (slowAssert_ok hs).2
  split_ifs at h
  · obtain ⟨y0, e1, h⟩ := bind_eq_ok h
    obtain ⟨st, e2, h⟩ := bind_eq_ok h
    cases h
    exact main hs (assign_known e1) e2
  · obtain ⟨y0, e1, h⟩ := bind_eq_ok h
    obtain ⟨st, e2, h⟩ := bind_eq_ok h
    cases h
    exact main hs (neg_known e1) e2

theorem log1pExp_known (hker : ker.KnownBases) {J : Junk K} {y x r : Ser K} {s : ℤ} (hx : 0 ≤ x.known)
    (h : log1pExp ker J y x s = .ok r) : r.known = x.known := by
  unfold log1pExp at h
  simp only at h
  split_ifs at h with h0
  · cases h; exact h0.symm
  obtain ⟨_, hs, h⟩ := bind_eq_ok h
  have hs := slowAssert_ok hs
  obtain ⟨y0, e0, h⟩ := bind_eq_ok h
  obtain ⟨st, e, h⟩ := bind_eq_ok h
  cases h
  have hb := exp_known hker (by rw [known_low]; simp only [relu]; omega) e0
  rw [known_low] at hb
  simp only [relu] at hb
  refine newton_known (n0 := y0.known) Prod.fst (by omega) (by omega) (by omega) rfl (fun m0 m r t s' h1 h2 h3 e => ?_) e
  obtain ⟨y, ndy, t⟩ := t
  obtain ⟨y1, e1, e⟩ := bind_eq_ok e
  obtain ⟨t1, e2, e⟩ := bind_eq_ok e
  obtain ⟨t2, e3, e⟩ := bind_eq_ok e
  obtain ⟨d1, e4, e⟩ := bind_eq_ok e
  obtain ⟨t3, e5, e⟩ := bind_eq_ok e
  obtain ⟨d2, e6, e⟩ := bind_eq_ok e
  obtain ⟨y2, e7, e⟩ := bind_eq_ok e
  cases e
  have k1 := (setKnown_known e1).1
  have k2 := assign_known e2
  rw [known_low] at k2
  simp only [relu] at k2
  have k3 := addsub_known e3
  have k4 := exp_known hker (by omega) e4
  have k5 := expm1_known (by omega) e5
  have k6 := addsub_known e6
  have k7 := addsub_known e7
  rw [known_high] at k7
  simp only [relu] at k7 ⊢
  omega

theorem serialBase_known {leading : ℕ} {set : Junk K → Ser K → Ser K → Res (Ser K)} {J : Junk K} {y x r : Ser K}
    (h : serialBase leading set J y x = .ok r) : r.known = min 5 x.known := by
  unfold serialBase at h
  simp only at h
  obtain ⟨y1, e1, h⟩ := bind_eq_ok h
  have k1 := setCounts_known e1
  split_ifs at h
  · obtain ⟨ys, _, h⟩ := bind_eq_ok h
    cases h
    exact k1
  · cases h
    exact k1

theorem hostKer_knownBases (J : Junk K) (mul addmul : ℕ → Span K → Span K → Res (ℕ → K))
    (sqr : ℕ → Span K → Res (ℕ → K)) : (hostKer J mul addmul sqr).KnownBases where
  invBase h e := by have := serialBase_known e; omega
  expBase h e := by have := serialBase_known e; omega

end Ser

end Mandelbrot
