import Verif.Series.Junk
import Verif.Series.Known
import Verif.Area.Lemmas

/-!
# Two runs of the area functions with different memory contents, and the counts of their results
-/

set_option linter.unusedSectionVars false

namespace Mandelbrot

namespace Ser

variable {K : Type} [Zero K] [One K] [Add K] [Sub K] [Neg K] [Mul K] [Div K] [IntCast K] [Ldexp K] [DecidableEq K]

theorem subSi2exp_sim {z z' x x' y y' : Ser K} (hz : Dst z z') (a b : ℤ) (hx : Sim x x') (hy : Sim y y') :
    RelRes SimL (z.subSi2exp a x b y) (z'.subSi2exp a x' b y') := by
  simp only [subSi2exp, ← hx.known, ← hx.nonzero, ← hy.known, ← hy.nonzero]
  have h1 := hx.left.wf.known_nonneg'
  have h2 := hy.left.wf.known_nonneg'
  have h3 := hx.left.known_lt
  have h4 := hx.left.wf.nonneg
  refine fill_sim hz (by omega) (by omega) (by omega) fun i hi => ?_
  have e1 : (if (i : ℤ) < x.nonzero then x.data i else 0) = if (i : ℤ) < x.nonzero then x'.data i else 0 := by
    split_ifs with h
    · exact hx.data i h
    · rfl
  have e2 : (if (i : ℤ) < y.nonzero then y.data i else 0) = if (i : ℤ) < y.nonzero then y'.data i else 0 := by
    split_ifs with h
    · exact hy.data i h
    · rfl
  rw [e1, e2]

theorem subSi2exp_known {z x y r : Ser K} {a b : ℤ} (h : z.subSi2exp a x b y = .ok r) : r.known = min x.known y.known :=
  fill_known (f := fun _ _ => _) h

end Ser

namespace Area

open Ser

variable {K : Type} [Zero K] [One K] [Add K] [Sub K] [Neg K] [Mul K] [Div K] [IntCast K] [Ldexp K] [DecidableEq K]

variable {ker ker' : Ker K}

/-- The variables of `escape` in two runs. -/
structure EscSim (u v : EscState K) : Prop where
  h : SimL u.h v.h
  dh : SimL u.dh v.dh
  t : SimL u.t v.t
  s : SimL u.s v.s

theorem escapeStep_sim (hker : ker.Sim ker') {J J' : Junk K} {g g' dg dg' : Ser K} (hg : Ser.Sim g g') (hdg : Ser.Sim dg dg')
    (n dn : ℤ) (i : ℕ) {s t : EscState K} (h : EscSim s t) :
    RelRes EscSim (escapeStep ker J g dg n dn i s) (escapeStep ker' J' g' dg' n dn i t) := by
  have hp : (0 : ℤ) ≤ 2 ^ i - 1 := by have : (0 : ℤ) < 2 ^ i := by positivity
                                      omega
  simp only [escapeStep]
  refine RelRes.bind (subSi2exp_sim h.t.dst _ _ hg h.h.toSim) fun t t' ht => ?_
  refine RelRes.bind (log1pExp_sim hker h.s.dst (low_sim ht.toSim _).toSim _) fun s s' hs => ?_
  refine RelRes.bind (addsub_sim h.h hs.toSim _ _ hp) fun u u' hu => ?_
  refine RelRes.bind (reduceKnown_sim ht _) fun t t' ht => ?_
  refine RelRes.bind (addsub_sim ht hs.toSim _ _ hp) fun t t' ht => ?_
  refine RelRes.bind (exp_sim hker hs.dst ht.toSim) fun s s' hs => ?_
  refine RelRes.bind (subSi2exp_sim ht.dst _ _ hdg (low_sim h.dh.toSim _).toSim) fun t t' ht => ?_
  refine RelRes.bind (mul_sim hker ht.dst hs.toSim (low_sim ht.toSim _).toSim) fun t t' ht => ?_
  refine RelRes.bind (addsub_sim h.dh ht.toSim _ _ hp) fun v v' hv => ?_
  exact RelRes.pure ⟨hu, hv, ht, hs⟩

theorem escapeLoop_sim (hker : ker.Sim ker') {J J' : Junk K} {g g' dg dg' : Ser K} (hg : Ser.Sim g g') (hdg : Ser.Sim dg dg')
    (n dn : ℤ) (i : ℕ) {s t : EscState K} (h : EscSim s t) :
    RelRes EscSim (escapeLoop ker J g dg n dn i s) (escapeLoop ker' J' g' dg' n dn i t) := by
  induction i with
  | zero => exact h
  | succ i ih => exact RelRes.bind ih fun _ _ h => escapeStep_sim hker hg hdg _ _ _ h

theorem escape_sim (hker : ker.Sim ker') {J J' : Junk K} {h h' dh dh' g g' dg dg' : Ser K} (hh : Dst h h') (hd : Dst dh dh')
    (hg : Ser.Sim g g') (hdg : Ser.Sim dg dg') {n dn : ℤ} (hn : n < 2 ^ 63) (hdn : dn < 2 ^ 63) (k : ℕ) :
    RelRes Sim2 (escape ker J h dh k g dg n dn) (escape ker' J' h' dh' k g' dg' n dn) := by
  simp only [escape]
  refine RelRes.bind (setScalar_sim hh hn _) fun u u' hu => ?_
  refine RelRes.bind (setScalar_sim hd hdn _) fun v v' hv => ?_
  refine RelRes.bind (escapeLoop_sim hker hg hdg _ _ _ ⟨hu, hv, new_sim hn _ _, new_sim hn _ _⟩) fun s s' hs => ?_
  exact RelRes.pure ⟨hs.h, hs.dh⟩

theorem implicit_sim (hker : ker.Sim ker') {J J' : Junk K} {h h' dh dh' g g' dg dg' : Ser K} (hh : Dst h h') (hd : Dst dh dh')
    (hg : Ser.Sim g g') (hdg : Ser.Sim dg dg') {n dn : ℤ} (hn : n < 2 ^ 63) (hdn : dn < 2 ^ 63) (k : ℕ) :
    RelRes Sim2 (implicit ker J h dh k g dg n dn) (implicit ker' J' h' dh' k g' dg' n dn) := by
  simp only [implicit]
  refine RelRes.bind (escape_sim hker hh hd hg hdg hn hdn k) fun s s' hs => ?_
  refine RelRes.bind (addsub_sim hs.1 hg _ _ le_rfl) fun u u' hu => ?_
  refine RelRes.bind (addsub_sim hs.2 hdg _ _ le_rfl) fun v v' hv => ?_
  exact RelRes.pure ⟨hu, hv⟩

theorem bottcherPass_sim (hker : ker.Sim ker') {J J' : Junk K} {g g' : Ser K} (hg : Ser.Sim g g') (k : ℕ) {p : ℤ}
    (hp : p < 2 ^ 63) (r : Bool) : RelRes SimL (bottcherPass ker J k p r g) (bottcherPass ker' J' k p r g') := by
  have hp2 : p / 2 < 2 ^ 63 := by omega
  cases r with
  | false =>
    simp only [bottcherPass, Bool.false_eq_true, if_false]
    refine RelRes.bind (copy_sim hg hp _ _) fun g g' hg => ?_
    refine RelRes.bind_eq (setKnown_sim hg hp) fun g g' e _ hg => ?_
    have hp0 := (setKnown_known e).2
    refine RelRes.bind (setScalar_sim (new_sim hp2 _ _).dst hp2 _) fun dg dg' hdg => ?_
    refine RelRes.bind (implicit_sim hker (new_sim hp _ _).dst (new_sim hp2 _ _).dst hg.toSim hdg.toSim hp hp2 k)
      fun F F' hF => ?_
    refine RelRes.bind (div_sim hker hdg.dst (high_sim hF.1.toSim _).toSim hF.2.toSim) fun dg dg' hdg => ?_
    exact addsub_sim hg hdg.toSim _ _ (by omega)
  | true =>
    simp only [bottcherPass, if_true]
    refine RelRes.bind (copy_sim hg hp _ _) fun g g' hg => ?_
    refine RelRes.bind_eq (setKnown_sim hg hp) fun g g' e _ hg => ?_
    have hp0 := (setKnown_known e).2
    refine RelRes.bind (setScalar_sim (new_sim hp _ _).dst hp _) fun dg dg' hdg => ?_
    refine RelRes.bind (implicit_sim hker (new_sim hp _ _).dst (new_sim hp _ _).dst hg.toSim hdg.toSim hp hp k)
      fun F F' hF => ?_
    refine RelRes.bind (implicit_sim hker hF.1.dst (new_sim (by norm_num) _ _).dst hg.toSim hdg.toSim hp (by norm_num) k)
      fun F2 F2' hF2 => ?_
    refine RelRes.bind (div_sim hker hdg.dst hF2.1.toSim hF.2.toSim) fun dg dg' hdg => ?_
    exact addsub_sim hg (high_sim hdg.toSim _).toSim _ _ (by omega)

theorem shl32_lt {k : ℕ} {p : ℤ} (h : shl32 k = .ok p) : p < 2 ^ 63 := by
  unfold shl32 at h
  split_ifs at h with h1 h2
  · cases h; norm_num
  · cases h
    exact pow_lt_pow_right₀ (by norm_num) (by omega)

theorem bottcherStep_sim (hker : ker.Sim ker') {J J' : Junk K} {accept : ℕ → Bool → Ser K → Bool}
    (ha : ∀ k r f f', SimL f f' → accept k r f = accept k r f') {g g' : Ser K} (hg : Ser.Sim g g') :
    RelRes Sim2 (bottcherStep ker J accept g) (bottcherStep ker' J' accept g') := by
  simp only [bottcherStep, ← hg.known]
  cases knownToK g.known with
  | error e => exact rfl
  | ok k0 =>
    rw [bok, bok]
    cases e : shl32 (k0 + 1) with
    | error e => exact rfl
    | ok p =>
      rw [bok, bok]
      have hp := shl32_lt e
      refine RelRes.bind (bottcherPass_sim hker hg _ hp _) fun g g' hg => ?_
      refine RelRes.bind (exp_sim hker (new_sim hp _ _).dst hg.toSim) fun f f' hf => ?_
      refine RelRes.bind (RelRes.assert (by rw [ha _ _ _ _ hf])) fun _ _ _ => ?_
      refine RelRes.bind (bottcherPass_sim hker hg.toSim _ hp _) fun g g' hg => ?_
      refine RelRes.bind (exp_sim hker (new_sim hp _ _).dst hg.toSim) fun f f' hf => ?_
      refine RelRes.bind (RelRes.assert (by rw [ha _ _ _ _ hf])) fun _ _ _ => ?_
      exact RelRes.pure ⟨hg, hf⟩

theorem bottcherBase_sim (J J' : Junk K) : RelRes SimL (bottcherBase J) (bottcherBase J') :=
  setScalar_sim (new_sim (by norm_num) _ _).dst (by norm_num) _

theorem areas_sim (hker : ker.Sim ker') {J J' : Junk K} {accept : ℕ → Bool → Ser K → Bool}
    (ha : ∀ k r f f', SimL f f' → accept k r f = accept k r f') (k : ℕ) :
    RelRes SimL (areas ker J accept k) (areas ker' J' accept k) := by
  induction k with
  | zero => exact bottcherBase_sim _ _
  | succ k ih =>
    refine RelRes.bind ih fun g g' hg => ?_
    exact RelRes.bind (bottcherStep_sim hker ha hg.toSim) fun s s' hs => hs.1

/-! ## Counts -/

theorem escapeStep_known (hker : ker.KnownBases) {J : Junk K} {g dg : Ser K} {n dn : ℤ} {i : ℕ} {st st' : EscState K}
    (hn : 2 ^ i - 1 ≤ n) (hdn : 0 ≤ dn) (hd : dn ≤ dg.known) (hg : g.known = n) (hh : st.h.known = n) (hdh : st.dh.known = dn)
    (hdn' : dn ≤ n) (e : escapeStep ker J g dg n dn i st = .ok st') : st'.h.known = n ∧ st'.dh.known = dn := by
  have hp : (0 : ℤ) ≤ 2 ^ i - 1 := by have : (0 : ℤ) < 2 ^ i := by positivity
                                      omega
  generalize hq : (2 : ℤ) ^ i - 1 = q at hn hp
  unfold escapeStep at e
  simp only [hq] at e
  obtain ⟨t1, e1, e⟩ := bind_eq_ok e
  obtain ⟨s1, e2, e⟩ := bind_eq_ok e
  obtain ⟨h1, e3, e⟩ := bind_eq_ok e
  obtain ⟨t2, e4, e⟩ := bind_eq_ok e
  obtain ⟨t3, e5, e⟩ := bind_eq_ok e
  obtain ⟨s2, e6, e⟩ := bind_eq_ok e
  obtain ⟨t4, e7, e⟩ := bind_eq_ok e
  obtain ⟨t5, e8, e⟩ := bind_eq_ok e
  obtain ⟨d1, e9, e⟩ := bind_eq_ok e
  cases e
  have k1 := subSi2exp_known e1
  have k2 := log1pExp_known hker (by rw [known_low]; simp only [relu]; omega) e2
  rw [known_low] at k2
  have k3 := addsub_known e3
  have k4 := reduceKnown_known e4
  have k5 := addsub_known e5
  simp only [relu] at k2 k4
  have k6 := exp_known hker (by omega) e6
  have k7 := subSi2exp_known e7
  rw [known_low] at k7
  have k8 := mul_known e8
  rw [known_low] at k8
  have k9 := addsub_known e9
  simp only [relu] at k7 k8
  refine ⟨by simp only; omega, ?_⟩
  clear e1 e2 e3 e4 e5 e6 e7 e8 e9
  simp only
  by_cases hc : dn - q ≤ 0
  · rw [max_eq_right hc] at k4 k7 k8
    omega
  · rw [max_eq_left (by omega)] at k4 k7 k8
    omega

theorem escapeLoop_known (hker : ker.KnownBases) {J : Junk K} {g dg : Ser K} {n dn : ℤ} (hdn : 0 ≤ dn) (hd : dn ≤ dg.known)
    (hg : g.known = n) (hdn' : dn ≤ n) : ∀ {k : ℕ} {st st' : EscState K}, 2 ^ k - 1 ≤ n → st.h.known = n → st.dh.known = dn →
    escapeLoop ker J g dg n dn k st = .ok st' → st'.h.known = n ∧ st'.dh.known = dn := by
  intro k
  induction k with
  | zero => intro st st' _ h1 h2 e; cases e; exact ⟨h1, h2⟩
  | succ k ih =>
    intro st st' hk h1 h2 e
    obtain ⟨s1, e1, e⟩ := bind_eq_ok e
    have := ih (by rw [pow_succ] at hk; have : (0 : ℤ) < 2 ^ k := by positivity
                   omega) h1 h2 e1
    exact escapeStep_known hker hk hdn hd hg this.1 this.2 hdn' e

theorem implicit_known (hker : ker.KnownBases) {J : Junk K} {F dF g dg : Ser K} {n dn : ℤ} (hdn : 0 ≤ dn) (hd : dn ≤ dg.known)
    (hg : g.known = n) (hdn' : dn ≤ n) {k : ℕ} (hk : 2 ^ k - 1 ≤ n) {r : Ser K × Ser K}
    (e : implicit ker J F dF k g dg n dn = .ok r) : r.1.known = n ∧ r.2.known = dn := by
  unfold implicit at e
  obtain ⟨⟨F1, d1⟩, e1, e⟩ := bind_eq_ok e
  obtain ⟨F2, e2, e⟩ := bind_eq_ok e
  obtain ⟨d2, e3, e⟩ := bind_eq_ok e
  cases e
  obtain ⟨h1, e4, e1⟩ := bind_eq_ok e1
  obtain ⟨h2, e5, e1⟩ := bind_eq_ok e1
  obtain ⟨st, e6, e1⟩ := bind_eq_ok e1
  cases e1
  have k4 := setScalar_known e4
  have k5 := setScalar_known e5
  simp only [relu] at k4 k5
  have k6 := escapeLoop_known hker hdn hd hg hdn' hk (by simp only; omega) (by simp only; omega) e6
  have k2 := addsub_known e2
  have k3 := addsub_known e3
  simp only at k2 k3 ⊢
  omega

theorem bottcherPass_known (hker : ker.KnownBases) {J : Junk K} {g r : Ser K} {k : ℕ} (hk : 1 ≤ k) {b : Bool}
    (e : bottcherPass ker J k (2 ^ k) b g = .ok r) : r.known = 2 ^ k := by
  obtain ⟨j, rfl⟩ : ∃ j, k = j + 1 := ⟨k - 1, by omega⟩
  have hp : (0 : ℤ) < 2 ^ j := by positivity
  have hq : (2 : ℤ) ^ (j + 1) = 2 * 2 ^ j := by ring
  have hk' : (2 : ℤ) ^ (j + 1) - 1 ≤ 2 ^ (j + 1) := by omega
  cases b with
  | false =>
    simp only [bottcherPass, Bool.false_eq_true, if_false] at e
    obtain ⟨g1, _, e⟩ := bind_eq_ok e
    obtain ⟨g2, e2, e⟩ := bind_eq_ok e
    obtain ⟨dg, e3, e⟩ := bind_eq_ok e
    obtain ⟨⟨F, dF⟩, e4, e⟩ := bind_eq_ok e
    obtain ⟨d2, e5, e⟩ := bind_eq_ok e
    have k2 := (setKnown_known e2).1
    have k3 := setScalar_known e3
    simp only [relu] at k3
    have k4 := implicit_known hker (by omega) (by omega) k2 (by omega) hk' e4
    simp only at k4
    have k5 := div_known hker (by rw [known_high]; simp only [relu]; omega) (by simp only; omega) e5
    rw [known_high] at k5
    simp only [relu] at k5
    have k6 := addsub_known e
    omega
  | true =>
    simp only [bottcherPass, if_true] at e
    obtain ⟨g1, _, e⟩ := bind_eq_ok e
    obtain ⟨g2, e2, e⟩ := bind_eq_ok e
    obtain ⟨dg, e3, e⟩ := bind_eq_ok e
    obtain ⟨⟨F, dF⟩, e4, e⟩ := bind_eq_ok e
    obtain ⟨⟨F2, dF2⟩, e5, e⟩ := bind_eq_ok e
    obtain ⟨d2, e6, e⟩ := bind_eq_ok e
    have k2 := (setKnown_known e2).1
    have k3 := setScalar_known e3
    simp only [relu] at k3
    have k4 := implicit_known hker (by omega) (by omega) k2 (by omega) hk' e4
    have k5 := implicit_known hker (by omega) (by omega) k2 (by omega) hk' e5
    simp only at k4 k5
    have k6 := div_known hker (by simp only; omega) (by simp only; omega) e6
    simp only at k6
    have k7 := addsub_known e
    rw [known_high] at k7
    simp only [relu] at k7
    omega

/-- A step that returns doubles the number of terms. -/
theorem bottcherStep_known (hker : ker.KnownBases) {J : Junk K} {accept : ℕ → Bool → Ser K → Bool} {g : Ser K} {k : ℕ}
    (hk : k ≤ 62) (hg : g.known = 2 ^ k) {r : Ser K × Ser K} (e : bottcherStep ker J accept g = .ok r) :
    k ≤ 29 ∧ r.1.known = 2 ^ (k + 1) ∧ r.2.known = 2 ^ (k + 1) := by
  unfold bottcherStep at e
  rw [hg, knownToK_pow hk, bok] at e
  obtain ⟨p, e0, e⟩ := bind_eq_ok e
  obtain ⟨g1, e1, e⟩ := bind_eq_ok e
  have hp : p = 2 ^ (k + 1) ∧ k ≤ 29 := by
    unfold shl32 at e0
    split_ifs at e0 with h1 h2
    · cases e0
      unfold bottcherPass at e1
      obtain ⟨a, _, e1⟩ := bind_eq_ok e1
      obtain ⟨b, e3, _⟩ := bind_eq_ok e1
      have := (setKnown_known e3).2
      norm_num at this
    · cases e0; exact ⟨rfl, by omega⟩
  obtain ⟨rfl, hk'⟩ := hp
  obtain ⟨f1, e2, e⟩ := bind_eq_ok e
  obtain ⟨_, _, e⟩ := bind_eq_ok e
  obtain ⟨g2, e3, e⟩ := bind_eq_ok e
  obtain ⟨f2, e4, e⟩ := bind_eq_ok e
  obtain ⟨_, _, e⟩ := bind_eq_ok e
  cases e
  have k3 := bottcherPass_known hker (by omega) e3
  have hp : (0 : ℤ) < 2 ^ (k + 1) := by positivity
  have k4 := exp_known hker (by omega) e4
  exact ⟨hk', k3, by simp only; rw [k4, k3]⟩

end Area

end Mandelbrot
