import Verif.Series.History
import Verif.Series.Has

/-!
# Every operation keeps the counts consistent, whatever the coefficient arithmetic
-/

set_option linter.unusedSectionVars false

namespace Mandelbrot

namespace Ser

/-- The representation invariant: consistent counts that fit in an `int64_t`. -/
structure Good {K : Type} (x : Ser K) : Prop where
  wf : x.WF
  limit_lt : x.limit < 2 ^ 63
  known_lt : x.known < 2 ^ 63

variable {K : Type}

theorem Good.limit_nonneg {x : Ser K} (h : x.Good) : 0 ≤ x.limit := h.wf.nonneg.trans h.wf.le_limit

theorem WF.known_nonneg' {x : Ser K} (h : x.WF) : 0 ≤ x.known := h.nonneg.trans h.le_known

theorem Good.of_limit {x y : Ser K} (h : x.Good) (hl : y.limit = x.limit) (h0 : 0 ≤ y.nonzero)
    (h1 : y.nonzero ≤ y.known) (h2 : y.nonzero ≤ y.limit) (h3 : y.known < 2 ^ 63) : y.Good :=
  ⟨⟨h0, h1, h2⟩, hl ▸ h.limit_lt, h3⟩

theorem slowAssert_ok {p : Prop} [Decidable p] {u : Unit} (h : slowAssert p = .ok u) : p := by
  by_contra hp
  rw [slowAssert_false hp] at h
  cases h

theorem setCounts_good {x y : Ser K} {k z : ℤ} (hx : x.Good) (hk : 0 ≤ k) (hk' : k < 2 ^ 63)
    (hz : -2 ^ 63 ≤ z)     (h : x.setCounts k z = .ok y) : y.Good := by
  obtain ⟨u, h1, h2⟩ := bind_eq_ok h
  have h3 := slowAssert_ok h1
  cases h2
  have hl := hx.limit_nonneg
  have hl' := hx.limit_lt
  rw [toU64_of_nonneg (show 0 ≤ min x.limit k by omega)] at h3
  unfold toU64 at h3
  refine hx.of_limit rfl ?_ ?_ ?_ ?_ <;> simp only <;> split_ifs at h3 <;> omega

theorem setKnown_good {x y : Ser K} {k : ℤ} (hx : x.Good) (hk : k < 2 ^ 63) (h : x.setKnown k = .ok y) : y.Good := by
  obtain ⟨u, h1, h2⟩ := bind_eq_ok h
  have h3 := slowAssert_ok h1
  cases h2
  have := hx.wf.nonneg
  have := hx.wf.le_limit
  refine hx.of_limit rfl ?_ ?_ ?_ ?_ <;> simp only <;> omega

theorem reduceKnown_good {x y : Ser K} {k : ℤ} (hx : x.Good) (h : x.reduceKnown k = .ok y) :
    y.Good := setKnown_good hx (by have := hx.known_lt; omega) h

theorem setScalar_good {x y : Ser K} {k : ℤ} {a : K} (hx : x.Good) (hk : k < 2 ^ 63)
    (h : x.setScalar k a = .ok y) : y.Good := by
  obtain ⟨u, h1, h2⟩ := bind_eq_ok h
  have h3 := slowAssert_ok h1
  cases h2
  refine hx.of_limit rfl ?_ ?_ ?_ ?_ <;> simp only [relu] at h3 ⊢ <;> split_ifs at * <;> omega

theorem assign_good {x g y : Ser K} (hx : x.Good) (hg : g.Good) (h : x.assign g = .ok y) : y.Good := by
  obtain ⟨u, h1, h2⟩ := bind_eq_ok h
  have h3 := slowAssert_ok h1
  cases h2
  exact hx.of_limit rfl hg.wf.nonneg hg.wf.le_known h3 hg.known_lt

theorem setUnknown_good {x : Ser K} (hx : x.Good) : x.setUnknown.Good :=
  hx.of_limit rfl le_rfl le_rfl hx.limit_nonneg (by norm_num [setUnknown])

theorem cleared_good (x : Ser K) : x.cleared.Good :=
  ⟨⟨le_rfl, le_rfl, le_rfl⟩, by norm_num [cleared], by norm_num [cleared]⟩

theorem new_good {limit : ℤ} (h : limit < 2 ^ 63) (J : ℕ → K) : (new limit J).Good := by
  refine ⟨⟨le_rfl, le_rfl, relu_nonneg _⟩, ?_, by norm_num [new]⟩
  simp only [new, relu]; omega

theorem ofList_good {limit : ℤ} {J : ℕ → K} {cs : List K} {y : Ser K} (h : limit < 2 ^ 63)
    (e : ofList limit J cs = .ok y) : y.Good := by
  obtain ⟨u, h1, h2⟩ := bind_eq_ok e
  have h3 := slowAssert_ok h1
  cases h2
  exact (new_good h J).of_limit rfl (by simp) le_rfl h3 (h3.trans_lt (new_good h J).limit_lt)

theorem view_good {x : Ser K} (hx : x.Good) : x.view.Good :=
  ⟨⟨hx.wf.nonneg, hx.wf.le_known, le_rfl⟩, hx.wf.le_limit.trans_lt hx.limit_lt, hx.known_lt⟩

theorem low_good {x : Ser K} (hx : x.Good) (n : ℤ) : (x.low n).Good := by
  have h1 := relu_nonneg n
  have h2 := hx.wf.nonneg
  have h3 := hx.wf.le_known
  have h4 := hx.wf.le_limit
  have h5 := hx.limit_lt
  have h6 := hx.known_lt
  refine ⟨⟨?_, ?_, ?_⟩, ?_, ?_⟩ <;> simp only [low] <;> omega

theorem high_good {x : Ser K} (hx : x.Good) (n : ℤ) : (x.high n).Good := by
  have h2 := hx.wf.nonneg
  have h3 := hx.wf.le_known
  have h4 := hx.wf.le_limit
  have h5 := hx.limit_lt
  have h6 := hx.known_lt
  refine ⟨⟨?_, ?_, ?_⟩, ?_, ?_⟩ <;> simp only [high, relu] <;> omega

theorem loopSet_good {x : Ser K} (hx : x.Good) (n : ℤ) (f : ℕ → K) : (x.loopSet n f).Good :=
  ⟨⟨hx.wf.nonneg, hx.wf.le_known, hx.wf.le_limit⟩, hx.limit_lt, hx.known_lt⟩

variable [Zero K] [One K] [Add K] [Sub K] [Neg K] [Mul K] [Div K] [IntCast K] [Ldexp K]
  [DecidableEq K]

theorem copy_good {x y : Ser K} {limit : ℤ} {J : ℕ → K} (hx : x.Good) (hl : limit < 2 ^ 63)
    (h : x.copy limit J = .ok y) : y.Good := assign_good (new_good hl J) hx h

theorem addScalar_good {x y : Ser K} {a : K} (hx : x.Good) (h : x.addScalar a = .ok y) : y.Good := by
  obtain ⟨u, h1, h2⟩ := bind_eq_ok h
  cases h2
  exact ⟨⟨hx.wf.nonneg, hx.wf.le_known, hx.wf.le_limit⟩, hx.limit_lt, hx.known_lt⟩

theorem addsub_good {y x y' : Ser K} {sign b s : ℤ} (hy : y.Good) (hx : x.Good) (hs : 0 ≤ s)
    (h : y.highAddsubLdexp sign b s x = .ok y') : y'.Good := by
  obtain ⟨u, h1, h2⟩ := bind_eq_ok h
  have := hy.wf.nonneg
  have := hy.wf.le_known
  have := hx.wf.nonneg
  have := hx.wf.le_known
  refine setCounts_good (loopSet_good hy _ _) ?_ ?_ ?_ h2
  · omega
  · have := hy.known_lt
    omega
  · split_ifs <;> omega

theorem neg_good {y x y' : Ser K} (hy : y.Good) (hx : x.Good) (h : neg y x = .ok y') : y'.Good := by
  obtain ⟨y1, h1, h2⟩ := bind_eq_ok h
  cases h2
  exact loopSet_good (setCounts_good hy hx.wf.known_nonneg' hx.known_lt (by have := hx.wf.nonneg; omega) h1) _ _

theorem mul_good {ker : Ker K} {z x y z' : Ser K} (hz : z.Good) (hx : x.Good) (hy : y.Good)
    (h : mul ker z x y = .ok z') : z'.Good := by
  obtain ⟨y1, h1, h⟩ := bind_eq_ok h
  obtain ⟨r, _, h2⟩ := bind_eq_ok h
  cases h2
  have := hx.wf.known_nonneg'
  have := hy.wf.known_nonneg'
  have := relu_nonneg (x.nonzero + y.nonzero - 1)
  exact loopSet_good (setCounts_good hz (by omega) (by have := hx.known_lt; omega) (by omega) h1) _ _

theorem mul1p_good {ker : Ker K} {z x y z' : Ser K} {s : ℤ} (hz : z.Good) (hx : x.Good) (hy : y.Good)
    (h : mul1p ker z x y s = .ok z') : z'.Good := by
  obtain ⟨_, h0, h⟩ := bind_eq_ok h
  have hs := slowAssert_ok h0
  obtain ⟨y1, h1, h⟩ := bind_eq_ok h
  obtain ⟨r, _, h2⟩ := bind_eq_ok h
  cases h2
  have := hx.wf.known_nonneg'
  have := hy.wf.known_nonneg'
  have := hx.wf.nonneg
  have := hy.wf.nonneg
  exact loopSet_good (loopSet_good (setCounts_good hz (by omega) (by have := hx.known_lt; omega) (by omega) h1) _ _) _ _

theorem sqr_good {ker : Ker K} {y x y' : Ser K} (hy : y.Good) (hx : x.Good)
    (h : sqr ker y x = .ok y') : y'.Good := by
  obtain ⟨y1, h1, h⟩ := bind_eq_ok h
  obtain ⟨r, _, h2⟩ := bind_eq_ok h
  cases h2
  have := hx.wf.known_nonneg'
  have := relu_nonneg (2 * x.nonzero - 1)
  exact loopSet_good (setCounts_good hy (by omega) (by have := hx.known_lt; omega) (by omega) h1) _ _

theorem derivativeShift_good {y x y' : Ser K} {s : ℤ} (hy : y.Good) (hx : x.Good)
    (h : derivativeShift y x s = .ok y') : y'.Good := by
  obtain ⟨y1, h1, h2⟩ := bind_eq_ok h
  cases h2
  exact loopSet_good (setCounts_good hy hx.wf.known_nonneg' hx.known_lt (by have := hx.wf.nonneg; omega) h1) _ _

theorem integralShift_good {y x y' : Ser K} {s : ℤ} (hy : y.Good) (hx : x.Good)
    (h : integralShift y x s = .ok y') : y'.Good := by
  obtain ⟨y1, h1, h2⟩ := bind_eq_ok h
  cases h2
  exact loopSet_good (setCounts_good hy hx.wf.known_nonneg' hx.known_lt (by have := hx.wf.nonneg; omega) h1) _ _

theorem ldexpSer_good {y x y' : Ser K} {s : ℤ} (hy : y.Good) (hx : x.Good)
    (h : ldexpSer y x s = .ok y') : y'.Good := by
  obtain ⟨y1, h1, h2⟩ := bind_eq_ok h
  cases h2
  exact loopSet_good (setCounts_good hy hx.wf.known_nonneg' hx.known_lt (by have := hx.wf.nonneg; omega) h1) _ _

/-! ## Newton iterations -/

theorem newtonLoop_inv {σ : Type} {step : ℤ → ℤ → Bool → σ → Res σ} {n : ℤ} (hn : 0 < n)
    (P : σ → Prop) (hstep : ∀ m0 m r s s', 0 ≤ m0 → m ≤ n → P s → step m0 m r s = .ok s' → P s') :
    ∀ (k : ℕ) (n0 : ℤ) (s s' : σ), 0 ≤ n0 → P s → newtonLoop step n k n0 s = .ok s' → P s' := by
  intro k
  induction k with
  | zero => intro n0 s s' _ h e; cases e; exact h
  | succ k ih =>
    intro n0 s s' h0 h e
    obtain ⟨s1, e1, e2⟩ := bind_eq_ok e
    have h2 : (0 : ℤ) < 2 ^ (k / 2) := by positivity
    have h3 : (n + 2 ^ (k / 2) - 1) / 2 ^ (k / 2) ≤ n := by
      rw [Int.ediv_le_iff_le_mul h2]
      nlinarith
    refine ih _ s1 s' ?_ (hstep _ _ _ _ _ h0 h3 h e1) e2
    split_ifs
    · exact Int.ediv_nonneg (by omega) h2.le
    · exact h0

theorem newtonIterate_inv {σ : Type} {step : ℤ → ℤ → Bool → σ → Res σ} {n : ℤ}
    (P : σ → Prop) (hstep : ∀ m0 m r s s', 0 ≤ m0 → m ≤ n → P s → step m0 m r s = .ok s' → P s')
    {n0 : ℤ} {s s' : σ} (h : P s) (e : newtonIterate step n0 n s = .ok s') : P s' := by
  unfold newtonIterate at e
  split_ifs at e
  · cases e; exact h
  · obtain ⟨_, e0, e⟩ := bind_eq_ok e
    have := slowAssert_ok e0
    obtain ⟨k, _, e⟩ := bind_eq_ok e
    exact newtonLoop_inv (by omega) P hstep _ _ _ _ (by omega) h e

/-- The base cases keep the counts consistent. -/
structure _root_.Mandelbrot.Ker.GoodBases (ker : Ker K) : Prop where
  invBase : ∀ {y x y' : Ser K}, y.Good → x.Good → ker.invBase y x = .ok y' → y'.Good
  expBase : ∀ {y x y' : Ser K}, y.Good → x.Good → ker.expBase y x = .ok y' → y'.Good

variable {ker : Ker K}

theorem inv_good (hker : ker.GoodBases) {J : Junk K} {y x y' : Ser K} (hy : y.Good) (hx : x.Good)
    (h : inv ker J y x = .ok y') : y'.Good := by
  unfold inv at h
  simp only at h
  split_ifs at h
  · cases h; exact setUnknown_good hy
  obtain ⟨_, _, h⟩ := bind_eq_ok h
  obtain ⟨y0, h0, h⟩ := bind_eq_ok h
  obtain ⟨st, hs, h⟩ := bind_eq_ok h
  cases h
  refine (newtonIterate_inv (fun st => st.1.Good ∧ st.2.Good) ?_
    ⟨hker.invBase hy hx h0, new_good hx.known_lt _⟩ hs).1
  rintro m0 m r ⟨y, dy⟩ st' h0 hm ⟨hy, hd⟩ e
  obtain ⟨y1, e1, e⟩ := bind_eq_ok e
  have g1 := setKnown_good hy (hm.trans_lt hx.known_lt) e1
  obtain ⟨d1, e2, e⟩ := bind_eq_ok e
  have g2 := mul_good hd hx g1 e2
  obtain ⟨d2, e3, e⟩ := bind_eq_ok e
  have g3 := addScalar_good g2 e3
  obtain ⟨d3, e4, e⟩ := bind_eq_ok e
  have g4 := mul_good g3 g3 g1 e4
  obtain ⟨y2, e5, e⟩ := bind_eq_ok e
  cases e
  exact ⟨addsub_good g1 (high_good g4 _) h0 e5, g4⟩

theorem inv1p_good {J : Junk K} {y x y' : Ser K} {s : ℤ} (hy : y.Good) (hx : x.Good)
    (h : inv1p ker J y x s = .ok y') : y'.Good := by
  unfold inv1p at h
  simp only at h
  split_ifs at h
  · cases h; exact setUnknown_good hy
  obtain ⟨_, _, h⟩ := bind_eq_ok h
  obtain ⟨y0, h0, h⟩ := bind_eq_ok h
  obtain ⟨st, hs, h⟩ := bind_eq_ok h
  cases h
  refine (newtonIterate_inv (fun st => st.1.Good ∧ st.2.Good) ?_
    ⟨neg_good hy (low_good hx _) h0, new_good hx.known_lt _⟩ hs).1
  rintro m0 m r ⟨y, dy⟩ st' h0 hm ⟨hy, hd⟩ e
  obtain ⟨y1, e1, e⟩ := bind_eq_ok e
  have g1 := setKnown_good hy (hm.trans_lt hx.known_lt) e1
  obtain ⟨d1, e2, e⟩ := bind_eq_ok e
  have g2 := mul1p_good hd hx g1 e2
  obtain ⟨d2, e3, e⟩ := bind_eq_ok e
  have g3 := addsub_good g2 g1 le_rfl e3
  obtain ⟨d3, e4, e⟩ := bind_eq_ok e
  have g4 := mul1p_good g3 g3 g1 e4
  obtain ⟨y2, e5, e⟩ := bind_eq_ok e
  cases e
  exact ⟨addsub_good g1 (high_good g4 _) h0 e5, g4⟩

theorem div_good (hker : ker.GoodBases) {J : Junk K} {y a b y' : Ser K} (hy : y.Good) (ha : a.Good)
    (hb : b.Good) (h : div ker J y a b = .ok y') : y'.Good := by
  unfold div at h
  simp only at h
  have hk : min a.known b.known < 2 ^ 63 := by have := ha.known_lt; omega
  obtain ⟨i, e1, h⟩ := bind_eq_ok h
  have g1 := inv_good hker (new_good hk _) (low_good hb _) e1
  obtain ⟨y1, e2, h⟩ := bind_eq_ok h
  have g2 := mul_good hy ha g1 e2
  obtain ⟨d1, e3, h⟩ := bind_eq_ok h
  have g3 := mul_good (new_good hk _) hb g2 e3
  obtain ⟨d2, e4, h⟩ := bind_eq_ok h
  have g4 := addsub_good g3 ha le_rfl e4
  obtain ⟨d3, e5, h⟩ := bind_eq_ok h
  have g5 := mul_good g4 g4 g1 e5
  exact addsub_good g2 g5 le_rfl h

theorem div1p_good {J : Junk K} {y a b y' : Ser K} {s : ℤ} (hy : y.Good) (ha : a.Good)
    (hb : b.Good) (h : div1p ker J y a b s = .ok y') : y'.Good := by
  unfold div1p at h
  simp only at h
  obtain ⟨_, e0, h⟩ := bind_eq_ok h
  have hs := slowAssert_ok e0
  have := ha.known_lt
  obtain ⟨i, e1, h⟩ := bind_eq_ok h
  have g1 := inv1p_good (new_good (by omega) _) (low_good hb _) e1
  obtain ⟨y1, e2, h⟩ := bind_eq_ok h
  have g2 := mul1p_good hy ha g1 e2
  obtain ⟨d1, e3, h⟩ := bind_eq_ok h
  have g3 := mul1p_good (new_good (by omega) _) g2 hb e3
  obtain ⟨d2, e4, h⟩ := bind_eq_ok h
  have g4 := addsub_good g3 ha le_rfl e4
  obtain ⟨d3, e5, h⟩ := bind_eq_ok h
  have g5 := mul1p_good g4 g4 g1 e5
  exact addsub_good g2 g5 le_rfl h

theorem log_good (hker : ker.GoodBases) {J : Junk K} {y x y' : Ser K} (hy : y.Good) (hx : x.Good)
    (h : log ker J y x = .ok y') : y'.Good := by
  have main : ∀ {dx y1 : Ser K}, derivativeShift (new x.known (J [0])) x 0 = .ok dx →
      div ker (J.sub 1) y dx x = .ok y1 → integralShift y1 y1 0 = .ok y' → y'.Good := by
    intro dx y1 e1 e2 e3
    have g1 := derivativeShift_good (new_good hx.known_lt _) hx e1
    have g2 := div_good hker hy g1 hx e2
    exact integralShift_good g2 g2 e3
  unfold log at h
  simp only at h
  split_ifs at h
  · cases h; exact setUnknown_good hy
  · obtain ⟨_, _, h⟩ := bind_eq_ok h
    obtain ⟨_, _, h⟩ := bind_eq_ok h
    obtain ⟨dx, e1, h⟩ := bind_eq_ok h
    obtain ⟨y1, e2, h⟩ := bind_eq_ok h
    exact main e1 e2 h
  · obtain ⟨_, _, h⟩ := bind_eq_ok h
    obtain ⟨dx, e1, h⟩ := bind_eq_ok h
    obtain ⟨y1, e2, h⟩ := bind_eq_ok h
    exact main e1 e2 h

theorem log1p_good {J : Junk K} {y x y' : Ser K} {s : ℤ} (hy : y.Good) (hx : x.Good)
    (h : log1p ker J y x s = .ok y') : y'.Good := by
  unfold log1p at h
  simp only at h
  split_ifs at h
  · cases h; exact setUnknown_good hy
  obtain ⟨_, _, h⟩ := bind_eq_ok h
  obtain ⟨dx, e1, h⟩ := bind_eq_ok h
  obtain ⟨y1, e2, h⟩ := bind_eq_ok h
  have g1 := derivativeShift_good (new_good hx.known_lt _) hx e1
  have g2 := div1p_good hy g1 hx e2
  exact integralShift_good g2 g2 h

theorem exp_good (hker : ker.GoodBases) {J : Junk K} {y x y' : Ser K} (hy : y.Good) (hx : x.Good)
    (h : exp ker J y x = .ok y') : y'.Good := by
  have main : ∀ {y0 : Ser K} {st : Ser K × Ser K}, ker.expBase y x = .ok y0 →
      newtonIterate (expStep ker (J.sub 1) x) y0.known x.known (y0, new x.known (J [0])) = .ok st →
      st.1.Good := by
    intro y0 st h0 hs
    refine (newtonIterate_inv (fun st => st.1.Good ∧ st.2.Good) ?_
      ⟨hker.expBase hy hx h0, new_good hx.known_lt _⟩ hs).1
    rintro m0 m r ⟨y, dy⟩ st' h0 hm ⟨hy, hd⟩ e
    obtain ⟨y1, e1, e⟩ := bind_eq_ok e
    have g1 := setKnown_good hy (hm.trans_lt hx.known_lt) e1
    obtain ⟨d1, e2, e⟩ := bind_eq_ok e
    have g2 := log_good hker hd g1 e2
    obtain ⟨d2, e3, e⟩ := bind_eq_ok e
    have g3 := addsub_good g2 hx le_rfl e3
    obtain ⟨d3, e4, e⟩ := bind_eq_ok e
    have g4 := mul_good g3 g1 g3 e4
    obtain ⟨y2, e5, e⟩ := bind_eq_ok e
    cases e
    exact ⟨addsub_good g1 (high_good g4 _) h0 e5, g4⟩
  unfold exp at h
  simp only at h
  split_ifs at h
  · cases h; exact setUnknown_good hy
  · obtain ⟨_, _, h⟩ := bind_eq_ok h
    obtain ⟨y0, e1, h⟩ := bind_eq_ok h
    obtain ⟨st, e2, h⟩ := bind_eq_ok h
    cases h
    exact main e1 e2
  · obtain ⟨y0, e1, h⟩ := bind_eq_ok h
    obtain ⟨st, e2, h⟩ := bind_eq_ok h
    cases h
    exact main e1 e2

theorem expm1_good {J : Junk K} {y x y' : Ser K} {a s : ℤ} (hy : y.Good) (hx : x.Good)
    (h : expm1 ker J y x a s = .ok y') : y'.Good := by
  have main : ∀ {y0 : Ser K} {st : Ser K × Ser K}, y0.Good →
      newtonIterate (expm1Step ker (J.sub 1) x a s) y0.known x.known (y0, new x.known (J [0])) = .ok st →
      st.1.Good := by
    intro y0 st h0 hs
    refine (newtonIterate_inv (fun st => st.1.Good ∧ st.2.Good) ?_
      ⟨h0, new_good hx.known_lt _⟩ hs).1
    rintro m0 m r ⟨y, dy⟩ st' h0 hm ⟨hy, hd⟩ e
    obtain ⟨y1, e1, e⟩ := bind_eq_ok e
    have g1 := setKnown_good hy (hm.trans_lt hx.known_lt) e1
    obtain ⟨d1, e2, e⟩ := bind_eq_ok e
    have g2 := log1p_good hd g1 e2
    have tail : ∀ {d2 : Ser K}, d2.Good → (do
        let dy ← mul1p ker d2 d2 y1 s
        let y ← y1.highSub m0 (dy.high m0)
        return (y, dy)) = .ok st' → st'.1.Good ∧ st'.2.Good := by
      intro d2 g3 e
      obtain ⟨d3, e4, e⟩ := bind_eq_ok e
      have g4 := mul1p_good g3 g3 g1 e4
      obtain ⟨y2, e5, e⟩ := bind_eq_ok e
      cases e
      exact ⟨addsub_good g1 (high_good g4 _) h0 e5, g4⟩
    simp only at e
    split_ifs at e
    · obtain ⟨d2, e3, e⟩ := bind_eq_ok e
      exact tail (addsub_good g2 hx le_rfl e3) e
    · obtain ⟨d2, e3, e⟩ := bind_eq_ok e
      exact tail (addsub_good g2 hx le_rfl e3) e
  unfold expm1 at h
  simp only at h
  obtain ⟨_, _, h⟩ := bind_eq_ok h
  split_ifs at h
  · obtain ⟨y0, e1, h⟩ := bind_eq_ok h
    obtain ⟨st, e2, h⟩ := bind_eq_ok h
    cases h
    exact main (assign_good hy (low_good hx _) e1) e2
  · obtain ⟨y0, e1, h⟩ := bind_eq_ok h
    obtain ⟨st, e2, h⟩ := bind_eq_ok h
    cases h
    exact main (neg_good hy (low_good hx _) e1) e2

theorem log1pExp_good (hker : ker.GoodBases) {J : Junk K} {y x y' : Ser K} {s : ℤ} (hy : y.Good)
    (hx : x.Good) (h : log1pExp ker J y x s = .ok y') : y'.Good := by
  unfold log1pExp at h
  simp only at h
  split_ifs at h
  · cases h; exact setUnknown_good hy
  obtain ⟨_, es, h⟩ := bind_eq_ok h
  have hs0 := slowAssert_ok es
  obtain ⟨y0, h0, h⟩ := bind_eq_ok h
  obtain ⟨st, hs, h⟩ := bind_eq_ok h
  cases h
  refine (newtonIterate_inv (fun st => st.1.Good ∧ st.2.1.Good ∧ st.2.2.Good) ?_
    ⟨exp_good hker hy (low_good hx _) h0, new_good hx.known_lt _, new_good hx.known_lt _⟩ hs).1
  rintro m0 m r ⟨y, ndy, t⟩ st' h0 hm ⟨hy, hd, ht⟩ e
  obtain ⟨y1, e1, e⟩ := bind_eq_ok e
  have g1 := setKnown_good hy (hm.trans_lt hx.known_lt) e1
  obtain ⟨t1, e2, e⟩ := bind_eq_ok e
  have g2 := assign_good ht (low_good hx _) e2
  obtain ⟨t2, e3, e⟩ := bind_eq_ok e
  have g3 := addsub_good g2 g1 hs0.le e3
  obtain ⟨d1, e4, e⟩ := bind_eq_ok e
  have g4 := exp_good hker hd g3 e4
  obtain ⟨t3, e5, e⟩ := bind_eq_ok e
  have g5 := expm1_good g3 g1 e5
  obtain ⟨d2, e6, e⟩ := bind_eq_ok e
  have g6 := addsub_good g4 g5 le_rfl e6
  obtain ⟨y2, e7, e⟩ := bind_eq_ok e
  cases e
  exact ⟨addsub_good g1 (high_good g6 _) h0 e7, g6, g5⟩

theorem serialBase_good {leading : ℕ} {set : Junk K → Ser K → Ser K → Res (Ser K)} {J : Junk K}
    {y x y' : Ser K} (hy : y.Good) (hx : x.Good) (h : serialBase leading set J y x = .ok y') :
    y'.Good := by
  unfold serialBase at h
  simp only at h
  have h0 := hx.wf.known_nonneg'
  obtain ⟨y1, e1, h⟩ := bind_eq_ok h
  have g1 := setCounts_good hy (by omega) (by omega) (by omega) e1
  split_ifs at h
  · obtain ⟨ys, _, h⟩ := bind_eq_ok h
    cases h
    exact loopSet_good g1 _ _
  · cases h
    exact g1

/-- The generated base cases keep the counts consistent, whatever the multiplication does. -/
theorem hostKer_goodBases (J : Junk K) (mul addmul : ℕ → Span K → Span K → Res (ℕ → K))
    (sqr : ℕ → Span K → Res (ℕ → K)) : (hostKer J mul addmul sqr).GoodBases :=
  ⟨fun hy hx h => serialBase_good hy hx h, fun hy hx h => serialBase_good hy hx h⟩

theorem update_good {σ : ℕ → Ser K} (h : ∀ i, (σ i).Good) {i : ℕ} {x : Ser K} (hx : x.Good) (j : ℕ) :
    (Function.update σ i x j).Good := by
  rcases eq_or_ne j i with rfl | hj
  · rwa [Function.update_self]
  · rw [Function.update_of_ne hj]; exact h j

theorem map_update_good {σ σ' : ℕ → Ser K} (h : ∀ i, (σ i).Good) {i : ℕ} {r : Res (Ser K)}
    (hr : ∀ y, r = .ok y → y.Good) (e : r.map (Function.update σ i) = .ok σ') : ∀ i, (σ' i).Good := by
  cases r with
  | error _ => cases e
  | ok y => cases e; exact update_good h (hr y rfl)

theorem step_good (hker : ker.GoodBases) {J : Junk K} {σ σ' : ℕ → Ser K} (h : ∀ i, (σ i).Good)
    {op : SerOp K} (hop : op.Valid) (e : step ker J σ op = .ok σ') : ∀ i, (σ' i).Good := by
  cases op with
  | construct i limit junk => cases e; exact update_good h (new_good hop _)
  | constructList i limit junk cs => exact map_update_good h (fun y e => ofList_good hop e) e
  | move i j => cases e; exact update_good (update_good h (cleared_good _)) (h j)
  | swap i j => cases e; exact update_good (update_good h (h j)) (h i)
  | clear i => cases e; exact update_good h (cleared_good _)
  | setScalar i known a => exact map_update_good h (fun y e => setScalar_good (h i) hop e) e
  | assign i j => exact map_update_good h (fun y e => assign_good (h i) (h j) e) e
  | setUnknown i => cases e; exact update_good h (setUnknown_good (h i))
  | setCounts i known nonzero =>
    exact map_update_good h (fun y e => setCounts_good (h i) hop.1 hop.2.1 hop.2.2 e) e
  | setKnown i known => exact map_update_good h (fun y e => setKnown_good (h i) hop e) e
  | reduceKnown i known => exact map_update_good h (fun y e => reduceKnown_good (h i) e) e
  | copy i j limit junk => exact map_update_good h (fun y e => copy_good (h j) hop e) e
  | view i j => cases e; exact update_good h (view_good (h j))
  | low i j n => cases e; exact update_good h (low_good (h j) n)
  | high i j n => cases e; exact update_good h (high_good (h j) n)
  | addScalar i a => exact map_update_good h (fun y e => addScalar_good (h i) e) e
  | addsub i sign b s j => exact map_update_good h (fun y e => addsub_good (h i) (h j) hop e) e
  | neg i j => exact map_update_good h (fun y e => neg_good (h i) (h j) e) e
  | mul i j k => exact map_update_good h (fun y e => mul_good (h i) (h j) (h k) e) e
  | mul1p i j k s => exact map_update_good h (fun y e => mul1p_good (h i) (h j) (h k) e) e
  | sqr i j => exact map_update_good h (fun y e => sqr_good (h i) (h j) e) e
  | inv i j => exact map_update_good h (fun y e => inv_good hker (h i) (h j) e) e
  | inv1p i j s => exact map_update_good h (fun y e => inv1p_good (h i) (h j) e) e
  | div i j k => exact map_update_good h (fun y e => div_good hker (h i) (h j) (h k) e) e
  | div1p i j k s => exact map_update_good h (fun y e => div1p_good (h i) (h j) (h k) e) e
  | derivativeShift i j s => exact map_update_good h (fun y e => derivativeShift_good (h i) (h j) e) e
  | integralShift i j s => exact map_update_good h (fun y e => integralShift_good (h i) (h j) e) e
  | log i j => exact map_update_good h (fun y e => log_good hker (h i) (h j) e) e
  | log1p i j s => exact map_update_good h (fun y e => log1p_good (h i) (h j) e) e
  | exp i j => exact map_update_good h (fun y e => exp_good hker (h i) (h j) e) e
  | expm1 i j a s => exact map_update_good h (fun y e => expm1_good (h i) (h j) e) e
  | log1pExp i j s => exact map_update_good h (fun y e => log1pExp_good hker (h i) (h j) e) e
  | ldexp i j b => exact map_update_good h (fun y e => ldexpSer_good (h i) (h j) e) e

theorem run_good (hker : ker.GoodBases) : ∀ (ops : List (Junk K × SerOp K)) {σ σ' : ℕ → Ser K},
    (∀ i, (σ i).Good) → (∀ op ∈ ops, op.2.Valid) → run ker σ ops = .ok σ' → ∀ i, (σ' i).Good := by
  intro ops
  induction ops with
  | nil => intro σ σ' h _ e; cases e; exact h
  | cons op ops ih =>
    intro σ σ' h hv e
    obtain ⟨σ1, e1, e⟩ := bind_eq_ok e
    exact ih (step_good hker h (hv op List.mem_cons_self) e1)
      (fun o ho => hv o (List.mem_cons_of_mem _ ho)) e

end Ser

end Mandelbrot
