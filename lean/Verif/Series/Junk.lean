import Verif.Series.HistoryLemmas

/-!
# Two runs with different memory contents

Relational lemmas: the same operation applied to series that agree in their counts and stored terms, with different contents of
fresh memory and of the cells beyond `nonzero`, behaves in the same way.
-/

set_option linter.unusedSectionVars false

namespace Mandelbrot

/-- Both calls fail in the same way, or both return and the results are related. -/
def RelRes {α β : Type} (R : α → β → Prop) : Res α → Res β → Prop
  | .ok a, .ok b => R a b
  | .error e, .error e' => e = e'
  | _, _ => False

theorem RelRes.bind {α β γ δ : Type} {R : α → β → Prop} {S : γ → δ → Prop} {x : Res α} {y : Res β} {f : α → Res γ}
    {g : β → Res δ} (h : RelRes R x y) (hf : ∀ a b, R a b → RelRes S (f a) (g b)) : RelRes S (x >>= f) (y >>= g) := by
  cases x <;> cases y <;> simp only [RelRes] at h
  · subst h; exact rfl
  · exact hf _ _ h

theorem RelRes.bind_eq {α β γ δ : Type} {R : α → β → Prop} {S : γ → δ → Prop} {x : Res α} {y : Res β} {f : α → Res γ}
    {g : β → Res δ} (h : RelRes R x y) (hf : ∀ a b, x = .ok a → y = .ok b → R a b → RelRes S (f a) (g b)) :
    RelRes S (x >>= f) (y >>= g) := by
  cases x <;> cases y <;> simp only [RelRes] at h
  · subst h; exact rfl
  · exact hf _ _ rfl rfl h

theorem RelRes.mono {α β : Type} {R S : α → β → Prop} {x : Res α} {y : Res β} (h : RelRes R x y)
    (hs : ∀ a b, x = .ok a → y = .ok b → R a b → S a b) : RelRes S x y := by
  cases x <;> cases y <;> simp only [RelRes] at h ⊢
  · exact h
  · exact hs _ _ rfl rfl h

theorem RelRes.assert {p q : Prop} [Decidable p] [Decidable q] (h : p ↔ q) :
    RelRes (fun _ _ => p ∧ q) (slowAssert p) (slowAssert q) := by
  by_cases hp : p
  · rw [slowAssert_true hp, slowAssert_true (h.mp hp)]; exact ⟨hp, h.mp hp⟩
  · rw [slowAssert_false hp, slowAssert_false fun hq => hp (h.mpr hq)]; rfl

theorem RelRes.pure {α β : Type} {R : α → β → Prop} {a : α} {b : β} (h : R a b) :
    RelRes R (Pure.pure a : Res α) (Pure.pure b : Res β) := h

namespace Ser

variable {K : Type}

/-- Same counts and same stored terms. -/
structure Sim (x y : Ser K) : Prop where
  left : x.Good
  right : y.Good
  known : x.known = y.known
  nonzero : x.nonzero = y.nonzero
  data : ∀ i : ℕ, (i : ℤ) < x.nonzero → x.data i = y.data i

/-- Same storage size. -/
structure Dst (x y : Ser K) : Prop where
  left : x.Good
  right : y.Good
  limit : x.limit = y.limit

/-- Same counts, stored terms and storage size. -/
structure SimL (x y : Ser K) : Prop extends Sim x y where
  limit : x.limit = y.limit

theorem SimL.dst {x y : Ser K} (h : SimL x y) : Dst x y := ⟨h.left, h.right, h.limit⟩

theorem Sim.refl {x : Ser K} (h : x.Good) : Sim x x := ⟨h, h, rfl, rfl, fun _ _ => rfl⟩

theorem SimL.refl {x : Ser K} (h : x.Good) : SimL x x := ⟨Sim.refl h, rfl⟩

/-- Spans with the same length and contents. -/
structure _root_.Mandelbrot.Span.Sim (x y : Span K) : Prop where
  len : x.len = y.len
  get : ∀ i < x.len, x.get i = y.get i

/-- Equality of the cells below `n`. -/
def Below (n : ℕ) (f g : ℕ → K) : Prop := ∀ i < n, f i = g i

theorem new_sim {limit : ℤ} (h : limit < 2 ^ 63) (j j' : ℕ → K) : SimL (new limit j) (new limit j') :=
  ⟨⟨new_good h j, new_good h j', rfl, rfl, fun i hi => by simp only [new] at hi; omega⟩, rfl⟩

theorem setUnknown_sim {x y : Ser K} (h : Dst x y) : SimL x.setUnknown y.setUnknown :=
  ⟨⟨setUnknown_good h.left, setUnknown_good h.right, rfl, rfl, fun i hi => by simp only [setUnknown] at hi; omega⟩, h.limit⟩

theorem low_sim {x y : Ser K} (h : Sim x y) (n : ℤ) : SimL (x.low n) (y.low n) := by
  refine ⟨⟨low_good h.left n, low_good h.right n, ?_, ?_, fun i hi => ?_⟩, ?_⟩
  · simp only [low, h.known]
  · simp only [low, h.known, h.nonzero]
  · exact h.data i (by simp only [low] at hi; omega)
  · simp only [low, h.known, h.nonzero]

theorem high_sim {x y : Ser K} (h : Sim x y) (n : ℤ) : SimL (x.high n) (y.high n) := by
  refine ⟨⟨high_good h.left n, high_good h.right n, ?_, ?_, fun i hi => ?_⟩, ?_⟩
  · simp only [high, h.known]
  · simp only [high, h.nonzero]
  · refine h.data _ ?_
    simp only [high, relu] at hi
    simp only [relu]
    push_cast
    omega
  · simp only [high, h.nonzero]

theorem view_sim {x y : Ser K} (h : Sim x y) : SimL x.view y.view :=
  ⟨⟨view_good h.left, view_good h.right, h.known, h.nonzero, h.data⟩, h.nonzero⟩

theorem span_sim {x y : Ser K} (h : Sim x y) : x.span.Sim y.span :=
  ⟨by simp only [span, h.nonzero], fun i hi => h.data i (by simp only [span] at hi; omega)⟩

theorem lowSpan_sim {x y : Ser K} (h : Sim x y) (n : ℤ) : (x.lowSpan n).Sim (y.lowSpan n) :=
  ⟨by simp only [lowSpan, h.nonzero], fun i hi => h.data i (by simp only [lowSpan] at hi; omega)⟩

theorem setScalar_sim {x y : Ser K} (h : Dst x y) {k : ℤ} (hk : k < 2 ^ 63) (a : K) :
    RelRes SimL (x.setScalar k a) (y.setScalar k a) := by
  have hl := h.limit
  have key : RelRes (fun a b => a.known = b.known ∧ a.nonzero = b.nonzero ∧ a.limit = b.limit ∧
      ∀ i : ℕ, (i : ℤ) < a.nonzero → a.data i = b.data i) (x.setScalar k a) (y.setScalar k a) := by
    refine RelRes.bind (RelRes.assert (by rw [hl])) fun _ _ _ => RelRes.pure ⟨rfl, rfl, hl, fun i hi => ?_⟩
    by_cases h0 : relu k > 0
    · simp only [if_pos h0] at hi
      simp only [if_pos (show relu k ≠ 0 ∧ i = 0 by omega)]
    · simp only [if_neg h0] at hi; omega
  exact key.mono fun u v e1 e2 h3 => ⟨⟨setScalar_good h.left hk e1, setScalar_good h.right hk e2, h3.1, h3.2.1, h3.2.2.2⟩, h3.2.2.1⟩

theorem assign_sim {x y g g' : Ser K} (h : Dst x y) (hg : Sim g g') : RelRes SimL (x.assign g) (y.assign g') := by
  have key : RelRes (fun a b => a.known = b.known ∧ a.nonzero = b.nonzero ∧ a.limit = b.limit ∧
      ∀ i : ℕ, (i : ℤ) < a.nonzero → a.data i = b.data i) (x.assign g) (y.assign g') := by
    refine RelRes.bind (RelRes.assert (by rw [h.limit, hg.nonzero])) fun _ _ _ =>
      RelRes.pure ⟨hg.known, hg.nonzero, h.limit, fun i hi => ?_⟩
    simp only [] at hi
    simp only [if_pos hi, if_pos (hg.nonzero ▸ hi)]
    exact hg.data i hi
  exact key.mono fun u v e1 e2 h3 =>
    ⟨⟨assign_good h.left hg.left e1, assign_good h.right hg.right e2, h3.1, h3.2.1, h3.2.2.2⟩, h3.2.2.1⟩

theorem copy_sim {g g' : Ser K} (hg : Sim g g') {limit : ℤ} (hl : limit < 2 ^ 63) (j j' : ℕ → K) :
    RelRes SimL (g.copy limit j) (g'.copy limit j') := assign_sim (new_sim hl j j').dst hg

theorem setKnown_sim {x y : Ser K} (h : SimL x y) {k : ℤ} (hk : k < 2 ^ 63) :
    RelRes SimL (x.setKnown k) (y.setKnown k) := by
  have key : RelRes (fun a b => a.known = b.known ∧ a.nonzero = b.nonzero ∧ a.limit = b.limit ∧
      ∀ i : ℕ, (i : ℤ) < a.nonzero → a.data i = b.data i) (x.setKnown k) (y.setKnown k) := by
    refine RelRes.bind (RelRes.assert Iff.rfl) fun _ _ _ =>
      RelRes.pure ⟨rfl, by simp only [h.nonzero], h.limit, fun i hi => h.data i (by simp only [] at hi; omega)⟩
  exact key.mono fun u v e1 e2 h3 =>
    ⟨⟨setKnown_good h.left hk e1, setKnown_good h.right hk e2, h3.1, h3.2.1, h3.2.2.2⟩, h3.2.2.1⟩

theorem reduceKnown_sim {x y : Ser K} (h : SimL x y) (k : ℤ) : RelRes SimL (x.reduceKnown k) (y.reduceKnown k) := by
  rw [reduceKnown, reduceKnown, ← h.known]
  exact setKnown_sim h (by have := h.left.known_lt; omega)

/-- Setting the counts: the counts and sizes agree, the terms are still to be filled in. -/
theorem setCounts_rel {x y : Ser K} (h : Dst x y) (k z : ℤ) :
    RelRes (fun a b => a.limit = b.limit ∧ a.known = k ∧ b.known = k ∧ a.nonzero = z ∧ b.nonzero = z)
      (x.setCounts k z) (y.setCounts k z) :=
  RelRes.bind (RelRes.assert (by rw [h.limit])) fun _ _ _ => RelRes.pure ⟨h.limit, rfl, rfl, rfl, rfl⟩

/-- Setting the counts and filling in the terms. -/
theorem fill_sim {x y : Ser K} (h : Dst x y) {k z : ℤ} (hk : 0 ≤ k) (hk' : k < 2 ^ 63) (hz : -2 ^ 63 ≤ z) {f g : ℕ → K}
    (hfg : ∀ i : ℕ, (i : ℤ) < z → f i = g i) :
    RelRes SimL (x.setCounts k z >>= fun x => pure (x.loopSet z f)) (y.setCounts k z >>= fun y => pure (y.loopSet z g)) := by
  refine RelRes.bind_eq (setCounts_rel h k z) fun a b e1 e2 hab => RelRes.pure ?_
  refine ⟨⟨loopSet_good (setCounts_good h.left hk hk' hz e1) _ _, loopSet_good (setCounts_good h.right hk hk' hz e2) _ _,
    ?_, ?_, fun i hi => ?_⟩, hab.1⟩
  · simp only [loopSet, hab]
  · simp only [loopSet, hab]
  · simp only [loopSet, hab] at hi
    simp only [loopSet, if_pos hi]
    exact hfg i hi

variable [Zero K] [One K] [Add K] [Sub K] [Neg K] [Mul K] [Div K] [IntCast K] [Ldexp K] [DecidableEq K]

theorem addScalar_sim {x y : Ser K} (h : SimL x y) (a : K) : RelRes SimL (x.addScalar a) (y.addScalar a) := by
  have key : RelRes (fun a b => a.known = b.known ∧ a.nonzero = b.nonzero ∧ a.limit = b.limit ∧
      ∀ i : ℕ, (i : ℤ) < a.nonzero → a.data i = b.data i) (x.addScalar a) (y.addScalar a) := by
    refine RelRes.bind (RelRes.assert (by rw [h.nonzero])) fun _ _ h0 =>
      RelRes.pure ⟨h.known, h.nonzero, h.limit, fun i hi => ?_⟩
    have := h.left.wf.nonneg
    simp only [] at hi ⊢
    split_ifs
    · rw [h.data 0 (by omega)]
    · exact h.data i hi
  exact key.mono fun u v e1 e2 h3 =>
    ⟨⟨addScalar_good h.left e1, addScalar_good h.right e2, h3.1, h3.2.1, h3.2.2.2⟩, h3.2.2.1⟩

theorem addsub_sim {y y' x x' : Ser K} (hy : SimL y y') (hx : Sim x x') (sign b : ℤ) {s : ℤ} (hs : 0 ≤ s) :
    RelRes SimL (y.highAddsubLdexp sign b s x) (y'.highAddsubLdexp sign b s x') := by
  have key : RelRes (fun a b => a.known = b.known ∧ a.nonzero = b.nonzero ∧ a.limit = b.limit ∧
      ∀ i : ℕ, (i : ℤ) < a.nonzero → a.data i = b.data i) (y.highAddsubLdexp sign b s x)
        (y'.highAddsubLdexp sign b s x') := by
    simp only [highAddsubLdexp, ← hy.known, ← hy.nonzero, ← hx.known, ← hx.nonzero, ← hy.limit]
    refine RelRes.bind (RelRes.assert Iff.rfl) fun _ _ _ => ?_
    simp only [setCounts, loopSet, ← hy.limit]
    refine RelRes.bind (RelRes.assert Iff.rfl) fun _ _ _ => RelRes.pure ⟨rfl, rfl, rfl, fun i hi => ?_⟩
    simp only [] at hi
    simp only [if_pos hi]
    have h1 : (if (i : ℤ) < y.nonzero then y.data i else 0) = if (i : ℤ) < y.nonzero then y'.data i else 0 := by
      split_ifs with h
      · exact hy.data i h
      · rfl
    have h2 : (if 0 ≤ (i : ℤ) - s ∧ (i : ℤ) - s < x.nonzero then x.data ((i : ℤ) - s).toNat else 0) =
        if 0 ≤ (i : ℤ) - s ∧ (i : ℤ) - s < x.nonzero then x'.data ((i : ℤ) - s).toNat else 0 := by
      split_ifs with h
      · exact hx.data _ (by omega)
      · rfl
    rw [h1, h2]
  exact key.mono fun u v e1 e2 h3 =>
    ⟨⟨addsub_good hy.left hx.left hs e1, addsub_good hy.right hx.right hs e2, h3.1, h3.2.1, h3.2.2.2⟩, h3.2.2.1⟩

theorem neg_sim {y y' x x' : Ser K} (hy : Dst y y') (hx : Sim x x') : RelRes SimL (neg y x) (neg y' x') := by
  rw [neg, neg, ← hx.known, ← hx.nonzero]
  exact fill_sim hy hx.left.wf.known_nonneg' hx.left.known_lt (by have := hx.left.wf.nonneg; omega)
    fun i hi => by rw [hx.data i hi]

theorem derivativeShift_sim {y y' x x' : Ser K} (hy : Dst y y') (hx : Sim x x') (s : ℤ) :
    RelRes SimL (derivativeShift y x s) (derivativeShift y' x' s) := by
  rw [derivativeShift, derivativeShift, ← hx.known, ← hx.nonzero]
  exact fill_sim hy hx.left.wf.known_nonneg' hx.left.known_lt (by have := hx.left.wf.nonneg; omega)
    fun i hi => by rw [hx.data i hi]

theorem integralShift_sim {y y' x x' : Ser K} (hy : Dst y y') (hx : Sim x x') (s : ℤ) :
    RelRes SimL (integralShift y x s) (integralShift y' x' s) := by
  rw [integralShift, integralShift, ← hx.known, ← hx.nonzero]
  exact fill_sim hy hx.left.wf.known_nonneg' hx.left.known_lt (by have := hx.left.wf.nonneg; omega)
    fun i hi => by rw [hx.data i hi]

theorem ldexpSer_sim {y y' x x' : Ser K} (hy : Dst y y') (hx : Sim x x') (s : ℤ) :
    RelRes SimL (ldexpSer y x s) (ldexpSer y' x' s) := by
  rw [ldexpSer, ldexpSer, ← hx.known, ← hx.nonzero]
  exact fill_sim hy hx.left.wf.known_nonneg' hx.left.known_lt (by have := hx.left.wf.nonneg; omega)
    fun i hi => by rw [hx.data i hi]

/-- Kernels that look only at the cells of their operands and agree on them. -/
structure _root_.Mandelbrot.Ker.Sim (ker ker' : Ker K) : Prop where
  mul : ∀ n {x x' y y' : Span K}, x.Sim x' → y.Sim y' → RelRes (Below n) (ker.mul n x y) (ker'.mul n x' y')
  addmul : ∀ n {x x' y y' : Span K}, x.Sim x' → y.Sim y' → RelRes (Below n) (ker.addmul n x y) (ker'.addmul n x' y')
  sqr : ∀ n {x x' : Span K}, x.Sim x' → RelRes (Below n) (ker.sqr n x) (ker'.sqr n x')
  invBase : ∀ {y y' x x' : Ser K}, Dst y y' → Ser.Sim x x' → RelRes SimL (ker.invBase y x) (ker'.invBase y' x')
  expBase : ∀ {y y' x x' : Ser K}, Dst y y' → Ser.Sim x x' → RelRes SimL (ker.expBase y x) (ker'.expBase y' x')
  check : ker.check = ker'.check

variable {ker ker' : Ker K}

theorem mul_sim (hker : ker.Sim ker') {z z' x x' y y' : Ser K} (hz : Dst z z') (hx : Sim x x') (hy : Sim y y') :
    RelRes SimL (mul ker z x y) (mul ker' z' x' y') := by
  have key : RelRes (fun a b => a.known = b.known ∧ a.nonzero = b.nonzero ∧ a.limit = b.limit ∧
      ∀ i : ℕ, (i : ℤ) < a.nonzero → a.data i = b.data i) (mul ker z x y) (mul ker' z' x' y') := by
    simp only [mul, ← hx.known, ← hx.nonzero, ← hy.known, ← hy.nonzero]
    refine RelRes.bind (setCounts_rel hz _ _) fun a b hab => ?_
    have hlen : a.span.len = b.span.len := by simp only [span, hab]
    rw [← hlen]
    refine RelRes.bind (hker.mul _ (lowSpan_sim hx _) (lowSpan_sim hy _)) fun r r' hr => RelRes.pure ?_
    refine ⟨by simp only [loopSet, hab], by simp only [loopSet, hab], hab.1, fun i hi => ?_⟩
    simp only [loopSet, hab] at hi
    simp only [loopSet, if_pos hi]
    exact hr i (by simp only [span, hab]; omega)
  exact key.mono fun u v e1 e2 h3 =>
    ⟨⟨mul_good hz.left hx.left hy.left e1, mul_good hz.right hx.right hy.right e2, h3.1, h3.2.1, h3.2.2.2⟩, h3.2.2.1⟩

theorem sqr_sim (hker : ker.Sim ker') {y y' x x' : Ser K} (hy : Dst y y') (hx : Sim x x') :
    RelRes SimL (sqr ker y x) (sqr ker' y' x') := by
  have key : RelRes (fun a b => a.known = b.known ∧ a.nonzero = b.nonzero ∧ a.limit = b.limit ∧
      ∀ i : ℕ, (i : ℤ) < a.nonzero → a.data i = b.data i) (sqr ker y x) (sqr ker' y' x') := by
    simp only [sqr, ← hx.known, ← hx.nonzero]
    refine RelRes.bind (setCounts_rel hy _ _) fun a b hab => ?_
    have hlen : a.span.len = b.span.len := by simp only [span, hab]
    rw [← hlen]
    refine RelRes.bind (hker.sqr _ (span_sim hx)) fun r r' hr => RelRes.pure ?_
    refine ⟨by simp only [loopSet, hab], by simp only [loopSet, hab], hab.1, fun i hi => ?_⟩
    simp only [loopSet, hab] at hi
    simp only [loopSet, if_pos hi]
    exact hr i (by simp only [span, hab]; omega)
  exact key.mono fun u v e1 e2 h3 =>
    ⟨⟨sqr_good hy.left hx.left e1, sqr_good hy.right hx.right e2, h3.1, h3.2.1, h3.2.2.2⟩, h3.2.2.1⟩

theorem mul1p_sim (hker : ker.Sim ker') {z z' x x' y y' : Ser K} (hz : Dst z z') (hx : Sim x x') (hy : Sim y y') (s : ℤ) :
    RelRes SimL (mul1p ker z x y s) (mul1p ker' z' x' y' s) := by
  have key : RelRes (fun a b => a.known = b.known ∧ a.nonzero = b.nonzero ∧ a.limit = b.limit ∧
      ∀ i : ℕ, (i : ℤ) < a.nonzero → a.data i = b.data i) (mul1p ker z x y s) (mul1p ker' z' x' y' s) := by
    simp only [mul1p, ← hx.known, ← hx.nonzero, ← hy.known, ← hy.nonzero]
    refine RelRes.bind (RelRes.assert Iff.rfl) fun _ _ hs => ?_
    refine RelRes.bind (setCounts_rel hz _ _) fun a b hab => ?_
    have hlen : (a.highSpan s).len = (b.highSpan s).len := by simp only [highSpan, hab]
    rw [← hlen]
    refine RelRes.bind (hker.addmul _ (lowSpan_sim hx _) (lowSpan_sim hy _)) fun r r' hr => RelRes.pure ?_
    refine ⟨by simp only [loopSet, hab], by simp only [loopSet, hab], hab.1, fun i hi => ?_⟩
    simp only [loopSet, hab] at hi
    simp only [loopSet, if_pos hi]
    have h1 : (if (i : ℤ) < x.nonzero then x.data i else 0) = if (i : ℤ) < x.nonzero then x'.data i else 0 := by
      split_ifs with h
      · exact hx.data i h
      · rfl
    by_cases h : s ≤ (i : ℤ)
    · rw [if_pos h, if_pos h, h1, hr _ (by simp only [highSpan, hab, relu]; omega)]
    · rw [if_neg h, if_neg h, h1]
  exact key.mono fun u v e1 e2 h3 =>
    ⟨⟨mul1p_good hz.left hx.left hy.left e1, mul1p_good hz.right hx.right hy.right e2, h3.1, h3.2.1, h3.2.2.2⟩, h3.2.2.1⟩

/-! ## Newton iterations -/

theorem newtonLoop_rel {σ τ : Type} {step : ℤ → ℤ → Bool → σ → Res σ} {step' : ℤ → ℤ → Bool → τ → Res τ} {n : ℤ}
    (hn : 0 < n) (R : σ → τ → Prop)
    (hstep : ∀ m0 m r s t, 0 ≤ m0 → m ≤ n → R s t → RelRes R (step m0 m r s) (step' m0 m r t)) :
    ∀ (k : ℕ) (n0 : ℤ) (s : σ) (t : τ), 0 ≤ n0 → R s t → RelRes R (newtonLoop step n k n0 s) (newtonLoop step' n k n0 t) := by
  intro k
  induction k with
  | zero => intro n0 s t _ h; exact h
  | succ k ih =>
    intro n0 s t h0 h
    rw [newtonLoop, newtonLoop]
    have hp : (0 : ℤ) < 2 ^ (k / 2) := by positivity
    have hm : (n + 2 ^ (k / 2) - 1) / 2 ^ (k / 2) ≤ n := by
      rw [← Int.lt_add_one_iff, Int.ediv_lt_iff_lt_mul hp]
      nlinarith
    have hm0 : 0 ≤ (n + 2 ^ (k / 2) - 1) / 2 ^ (k / 2) := Int.ediv_nonneg (by omega) hp.le
    refine RelRes.bind (hstep n0 _ _ s t h0 hm h) fun s' t' h' => ih _ _ _ ?_ h'
    split_ifs
    · exact hm0
    · exact h0

theorem newtonIterate_rel {σ τ : Type} {step : ℤ → ℤ → Bool → σ → Res σ} {step' : ℤ → ℤ → Bool → τ → Res τ} {n : ℤ}
    (R : σ → τ → Prop)
    (hstep : ∀ m0 m r s t, 0 ≤ m0 → m ≤ n → R s t → RelRes R (step m0 m r s) (step' m0 m r t))
    (n0 : ℤ) {s : σ} {t : τ} (h : R s t) : RelRes R (newtonIterate step n0 n s) (newtonIterate step' n0 n t) := by
  rw [newtonIterate, newtonIterate]
  split_ifs with hn
  · exact h
  · refine RelRes.bind (RelRes.assert Iff.rfl) fun _ _ h0 => ?_
    cases newtonSteps n0 n with
    | error e => exact rfl
    | ok k =>
      rw [bok, bok]
      exact newtonLoop_rel (by omega) R hstep _ _ _ _ (by omega) h

/-- Pairs of series. -/
def Sim2 (s t : Ser K × Ser K) : Prop := SimL s.1 t.1 ∧ SimL s.2 t.2

theorem inv_sim (hker : ker.Sim ker') {J J' : Junk K} {y y' x x' : Ser K} (hy : Dst y y') (hx : Sim x x') :
    RelRes SimL (inv ker J y x) (inv ker' J' y' x') := by
  simp only [inv, ← hx.known, ← hx.nonzero]
  split_ifs with h0
  · exact setUnknown_sim hy
  · refine RelRes.bind (RelRes.assert Iff.rfl) fun _ _ _ => ?_
    refine RelRes.bind (hker.invBase hy hx) fun y y' hy => ?_
    rw [← hy.known]
    refine RelRes.bind (newtonIterate_rel Sim2 (fun m0 m r s t h0 hm h => ?_) _ ⟨hy, new_sim hx.left.known_lt _ _⟩)
      fun s t h => h.1
    obtain ⟨y, dy⟩ := s; obtain ⟨y', dy'⟩ := t
    simp only [invStep]
    refine RelRes.bind (setKnown_sim h.1 (hm.trans_lt hx.left.known_lt)) fun y y' hy => ?_
    refine RelRes.bind (mul_sim hker h.2.dst hx hy.toSim) fun dy dy' hd => ?_
    refine RelRes.bind (addScalar_sim hd _) fun dy dy' hd => ?_
    refine RelRes.bind (mul_sim hker hd.dst hd.toSim hy.toSim) fun dy dy' hd => ?_
    refine RelRes.bind (addsub_sim hy (high_sim hd.toSim m0).toSim _ _ h0) fun y y' hy => ?_
    exact RelRes.pure ⟨hy, hd⟩

theorem inv1p_sim (hker : ker.Sim ker') {J J' : Junk K} {y y' x x' : Ser K} (hy : Dst y y') (hx : Sim x x') (s : ℤ) :
    RelRes SimL (inv1p ker J y x s) (inv1p ker' J' y' x' s) := by
  simp only [inv1p, ← hx.known]
  split_ifs with h0
  · exact setUnknown_sim hy
  · refine RelRes.bind (RelRes.assert Iff.rfl) fun _ _ _ => ?_
    refine RelRes.bind (neg_sim hy (low_sim hx s).toSim) fun y y' hy => ?_
    rw [← hy.known]
    refine RelRes.bind (newtonIterate_rel Sim2 (fun m0 m r s t h0 hm h => ?_) _ ⟨hy, new_sim hx.left.known_lt _ _⟩)
      fun s t h => h.1
    obtain ⟨y, dy⟩ := s; obtain ⟨y', dy'⟩ := t
    simp only [inv1pStep]
    refine RelRes.bind (setKnown_sim h.1 (hm.trans_lt hx.left.known_lt)) fun y y' hy => ?_
    refine RelRes.bind (mul1p_sim hker h.2.dst hx hy.toSim _) fun dy dy' hd => ?_
    refine RelRes.bind (addsub_sim hd hy.toSim _ _ le_rfl) fun dy dy' hd => ?_
    refine RelRes.bind (mul1p_sim hker hd.dst hd.toSim hy.toSim _) fun dy dy' hd => ?_
    refine RelRes.bind (addsub_sim hy (high_sim hd.toSim m0).toSim _ _ h0) fun y y' hy => ?_
    exact RelRes.pure ⟨hy, hd⟩

theorem div_sim (hker : ker.Sim ker') {J J' : Junk K} {y y' a a' b b' : Ser K} (hy : Dst y y') (ha : Sim a a')
    (hb : Sim b b') : RelRes SimL (div ker J y a b) (div ker' J' y' a' b') := by
  simp only [div, ← ha.known, ← hb.known]
  have hn : min a.known b.known < 2 ^ 63 := by have := ha.left.known_lt; omega
  refine RelRes.bind (inv_sim hker (new_sim hn _ _).dst (low_sim hb _).toSim) fun i i' hi => ?_
  refine RelRes.bind (mul_sim hker hy ha hi.toSim) fun y y' hy => ?_
  refine RelRes.bind (mul_sim hker (new_sim hn _ _).dst hb hy.toSim) fun dy dy' hd => ?_
  refine RelRes.bind (addsub_sim hd ha _ _ le_rfl) fun dy dy' hd => ?_
  refine RelRes.bind (mul_sim hker hd.dst hd.toSim hi.toSim) fun dy dy' hd => ?_
  exact addsub_sim hy hd.toSim _ _ le_rfl

theorem div1p_sim (hker : ker.Sim ker') {J J' : Junk K} {y y' a a' b b' : Ser K} (hy : Dst y y') (ha : Sim a a')
    (hb : Sim b b') (s : ℤ) : RelRes SimL (div1p ker J y a b s) (div1p ker' J' y' a' b' s) := by
  simp only [div1p, ← ha.known, ← hb.known]
  refine RelRes.bind (RelRes.assert Iff.rfl) fun _ _ hs => ?_
  have hn : min a.known (b.known + s) < 2 ^ 63 := by have := ha.left.known_lt; omega
  refine RelRes.bind (inv1p_sim hker (new_sim (by omega) _ _).dst (low_sim hb _).toSim s) fun i i' hi => ?_
  refine RelRes.bind (mul1p_sim hker hy ha hi.toSim s) fun y y' hy => ?_
  refine RelRes.bind (mul1p_sim hker (new_sim hn _ _).dst hy.toSim hb s) fun dy dy' hd => ?_
  refine RelRes.bind (addsub_sim hd ha _ _ le_rfl) fun dy dy' hd => ?_
  refine RelRes.bind (mul1p_sim hker hd.dst hd.toSim hi.toSim s) fun dy dy' hd => ?_
  exact addsub_sim hy hd.toSim _ _ le_rfl

theorem log_sim (hker : ker.Sim ker') {J J' : Junk K} {y y' x x' : Ser K} (hy : Dst y y') (hx : Sim x x') :
    RelRes SimL (log ker J y x) (log ker' J' y' x') := by
  simp only [log, ← hx.known, ← hx.nonzero, ← hker.check]
  split_ifs with h0 hc
  · exact setUnknown_sim hy
  · refine RelRes.bind (RelRes.assert Iff.rfl) fun _ _ hnz => ?_
    refine RelRes.bind (RelRes.assert (by
      have := hx.left.wf.nonneg
      rw [hx.data 0 (by omega)])) fun _ _ _ => ?_
    refine RelRes.bind (derivativeShift_sim (new_sim hx.left.known_lt _ _).dst hx 0) fun dx dx' hd => ?_
    refine RelRes.bind (div_sim hker hy hd.toSim hx) fun y y' hy => ?_
    exact integralShift_sim hy.dst hy.toSim 0
  · refine RelRes.bind (RelRes.assert Iff.rfl) fun _ _ hnz => ?_
    refine RelRes.bind (derivativeShift_sim (new_sim hx.left.known_lt _ _).dst hx 0) fun dx dx' hd => ?_
    refine RelRes.bind (div_sim hker hy hd.toSim hx) fun y y' hy => ?_
    exact integralShift_sim hy.dst hy.toSim 0

theorem log1p_sim (hker : ker.Sim ker') {J J' : Junk K} {y y' x x' : Ser K} (hy : Dst y y') (hx : Sim x x') (s : ℤ) :
    RelRes SimL (log1p ker J y x s) (log1p ker' J' y' x' s) := by
  simp only [log1p, ← hx.known]
  split_ifs with h0
  · exact setUnknown_sim hy
  · refine RelRes.bind (RelRes.assert Iff.rfl) fun _ _ _ => ?_
    refine RelRes.bind (derivativeShift_sim (new_sim hx.left.known_lt _ _).dst hx s) fun dx dx' hd => ?_
    refine RelRes.bind (div1p_sim hker hy hd.toSim hx s) fun y y' hy => ?_
    exact integralShift_sim hy.dst hy.toSim s

theorem exp_sim (hker : ker.Sim ker') {J J' : Junk K} {y y' x x' : Ser K} (hy : Dst y y') (hx : Sim x x') :
    RelRes SimL (exp ker J y x) (exp ker' J' y' x') := by
  have main : RelRes SimL
      (ker.expBase y x >>= fun y => newtonIterate (expStep ker (J.sub 1) x) y.known x.known (y, new x.known (J [0])) >>=
        fun st => pure st.1)
      (ker'.expBase y' x' >>= fun y => newtonIterate (expStep ker' (J'.sub 1) x') y.known x.known (y, new x.known (J' [0])) >>=
        fun st => pure st.1) := by
    refine RelRes.bind (hker.expBase hy hx) fun y y' hy => ?_
    rw [← hy.known]
    refine RelRes.bind (newtonIterate_rel Sim2 (fun m0 m r s t h0 hm h => ?_) _ ⟨hy, new_sim hx.left.known_lt _ _⟩)
      fun s t h => h.1
    obtain ⟨y, dy⟩ := s; obtain ⟨y', dy'⟩ := t
    simp only [expStep]
    refine RelRes.bind (setKnown_sim h.1 (hm.trans_lt hx.left.known_lt)) fun y y' hy => ?_
    refine RelRes.bind (log_sim hker h.2.dst hy.toSim) fun dy dy' hd => ?_
    refine RelRes.bind (addsub_sim hd hx _ _ le_rfl) fun dy dy' hd => ?_
    refine RelRes.bind (mul_sim hker hd.dst hy.toSim hd.toSim) fun dy dy' hd => ?_
    refine RelRes.bind (addsub_sim hy (high_sim hd.toSim m0).toSim _ _ h0) fun y y' hy => ?_
    exact RelRes.pure ⟨hy, hd⟩
  simp only [exp, ← hx.known, ← hker.check, ← hx.nonzero]
  split_ifs with h0 hc
  · exact setUnknown_sim hy
  · refine RelRes.bind (RelRes.assert ?_) fun _ _ hnz => main
    have := hx.left.wf.nonneg
    by_cases hz : x.nonzero = 0
    · simp only [hz, true_or]
    · rw [hx.data 0 (by omega)]
  · exact main

theorem expm1_sim (hker : ker.Sim ker') {J J' : Junk K} {y y' x x' : Ser K} (hy : Dst y y') (hx : Sim x x') (a s : ℤ) :
    RelRes SimL (expm1 ker J y x a s) (expm1 ker' J' y' x' a s) := by
  simp only [expm1, ← hx.known]
  refine RelRes.bind (RelRes.assert Iff.rfl) fun _ _ _ => ?_
  suffices main : ∀ y y' : Ser K, SimL y y' → RelRes SimL
      (newtonIterate (expm1Step ker (J.sub 1) x a s) y.known x.known (y, new x.known (J [0])) >>= fun st => pure st.1)
      (newtonIterate (expm1Step ker' (J'.sub 1) x' a s) y'.known x.known (y', new x.known (J' [0])) >>=
        fun st => pure st.1) by
    split_ifs
    · exact RelRes.bind (assign_sim hy (low_sim hx s).toSim) main
    · exact RelRes.bind (neg_sim hy (low_sim hx s).toSim) main
  intro y y' hy
  rw [← hy.known]
  refine RelRes.bind (newtonIterate_rel Sim2 (fun m0 m r u t h0 hm h => ?_) _ ⟨hy, new_sim hx.left.known_lt _ _⟩)
    fun s t h => h.1
  obtain ⟨y, dy⟩ := u; obtain ⟨y', dy'⟩ := t
  simp only [expm1Step]
  refine RelRes.bind (setKnown_sim h.1 (hm.trans_lt hx.left.known_lt)) fun y y' hy => ?_
  refine RelRes.bind (log1p_sim hker h.2.dst hy.toSim s) fun dy dy' hd => ?_
  suffices main : ∀ dy dy' : Ser K, SimL dy dy' → RelRes Sim2
      (mul1p ker dy dy y s >>= fun dy => y.highSub m0 (dy.high m0) >>= fun y => pure (y, dy))
      (mul1p ker' dy' dy' y' s >>= fun dy' => y'.highSub m0 (dy'.high m0) >>= fun y' => pure (y', dy')) by
    split_ifs
    · exact RelRes.bind (addsub_sim hd hx _ _ le_rfl) main
    · exact RelRes.bind (addsub_sim hd hx _ _ le_rfl) main
  intro dy dy' hd
  refine RelRes.bind (mul1p_sim hker hd.dst hd.toSim hy.toSim s) fun dy dy' hd => ?_
  refine RelRes.bind (addsub_sim hy (high_sim hd.toSim m0).toSim _ _ h0) fun y y' hy => ?_
  exact RelRes.pure ⟨hy, hd⟩

theorem log1pExp_sim (hker : ker.Sim ker') {J J' : Junk K} {y y' x x' : Ser K} (hy : Dst y y') (hx : Sim x x') (s : ℤ) :
    RelRes SimL (log1pExp ker J y x s) (log1pExp ker' J' y' x' s) := by
  simp only [log1pExp, ← hx.known]
  split_ifs with h0
  · exact setUnknown_sim hy
  · refine RelRes.bind (RelRes.assert Iff.rfl) fun _ _ hs => ?_
    refine RelRes.bind (exp_sim hker hy (low_sim hx s).toSim) fun y y' hy => ?_
    rw [← hy.known]
    refine RelRes.bind (newtonIterate_rel (fun u t => SimL u.1 t.1 ∧ SimL u.2.1 t.2.1 ∧ SimL u.2.2 t.2.2)
      (fun m0 m r u t h0 hm h => ?_) _ ⟨hy, new_sim hx.left.known_lt _ _, new_sim hx.left.known_lt _ _⟩) fun s t h => RelRes.pure h.1
    obtain ⟨y, dy, t0⟩ := u; obtain ⟨y', dy', t0'⟩ := t
    simp only [log1pExpStep]
    refine RelRes.bind (setKnown_sim h.1 (hm.trans_lt hx.left.known_lt)) fun y y' hy => ?_
    refine RelRes.bind (assign_sim h.2.2.dst (low_sim hx m).toSim) fun t t' ht => ?_
    refine RelRes.bind (addsub_sim ht hy.toSim _ _ (by omega)) fun t t' ht => ?_
    refine RelRes.bind (exp_sim hker h.2.1.dst ht.toSim) fun dy dy' hd => ?_
    refine RelRes.bind (expm1_sim hker ht.dst hy.toSim _ s) fun t t' ht => ?_
    refine RelRes.bind (addsub_sim hd ht.toSim _ _ le_rfl) fun dy dy' hd => ?_
    refine RelRes.bind (addsub_sim hy (high_sim hd.toSim m0).toSim _ _ h0) fun y y' hy => ?_
    exact RelRes.pure ⟨hy, hd, ht⟩

/-! ## Kernels -/

theorem naiveMul_sim (n : ℕ) {x x' y y' : Span K} (hx : x.Sim x') (hy : y.Sim y') :
    RelRes (Below n) (naiveMul n x y) (naiveMul n x' y') := by
  intro i _
  simp only [naiveCoeff, ← hx.len, ← hy.len]
  congr 1
  refine List.map_congr_left fun j hj => ?_
  have := (List.mem_filter.mp hj).2
  simp only [decide_eq_true_eq] at this
  rw [hx.get j this.1, hy.get _ this.2]

theorem oneTermBase_sim (f : K → K) {y y' x x' : Ser K} (hy : Dst y y') (hx : Sim x x') :
    RelRes SimL (oneTermBase f y x) (oneTermBase f y' x') := by
  rw [oneTermBase, oneTermBase]
  have h0 : (if x.nonzero ≠ 0 then x.data 0 else 0) = if x'.nonzero ≠ 0 then x'.data 0 else 0 := by
    rw [← hx.nonzero]
    have := hx.left.wf.nonneg
    split_ifs with h
    · exact hx.data 0 (by omega)
    · rfl
  simp only [h0]
  exact fill_sim hy (by norm_num) (by norm_num) (by norm_num) fun i hi => rfl

theorem codeletKer_sim : (codeletKer : Ker K).Sim codeletKer where
  mul n _ _ _ _ hx hy := naiveMul_sim n hx hy
  addmul n _ _ _ _ hx hy := naiveMul_sim n hx hy
  sqr n _ _ hx := naiveMul_sim n hx hx
  invBase hy hx := oneTermBase_sim (fun x0 => 1 / x0) hy hx
  expBase hy hx := oneTermBase_sim (fun _ => 1) hy hx
  check := rfl

/-! ### Counts in the code generator -/

theorem setCounts_ok' (x : Ser K) {k z : ℤ} (h0 : 0 ≤ z) (h1 : z ≤ k) (h2 : z ≤ x.limit) :
    x.setCounts k z = .ok { x with known := k, nonzero := z } := by
  have : toU64 z ≤ toU64 (min x.limit k) := by
    rw [toU64_of_nonneg h0, toU64_of_nonneg (le_min (by omega) (by omega))]
    exact le_min h2 h1
  simp [setCounts, slowAssert, this]

theorem setKnown_cnt (y : Ser K) {m : ℤ} (hm : 0 ≤ m) :
    ∃ r, y.setKnown m = .ok r ∧ r.limit = y.limit ∧ r.known = m ∧ r.nonzero = min y.nonzero m :=
  ⟨{ y with known := m, nonzero := min y.nonzero m }, by simp only [setKnown]; rw [slowAssert_true hm]; rfl, rfl, rfl, rfl⟩

theorem addScalar_cnt (x : Ser K) (a : K) (h : x.nonzero ≠ 0) :
    ∃ r, x.addScalar a = .ok r ∧ r.limit = x.limit ∧ r.known = x.known ∧ r.nonzero = x.nonzero :=
  ⟨{ x with data := fun i => if i = 0 then x.data 0 + a else x.data i },
    by simp only [addScalar]; rw [slowAssert_true h]; rfl, rfl, rfl, rfl⟩

theorem loop_cnt (y : Ser K) {k z : ℤ} (h0 : 0 ≤ z) (hk : z ≤ k) (hl : z ≤ y.limit) (f : ℕ → K) :
    ∃ r, (y.setCounts k z >>= fun y => (pure (y.loopSet z f) : Res (Ser K))) = .ok r ∧ r.limit = y.limit ∧ r.known = k ∧
      r.nonzero = z :=
  ⟨(⟨y.limit, k, z, y.data⟩ : Ser K).loopSet z f, by rw [setCounts_ok' y h0 hk hl, bok]; rfl, rfl, rfl, rfl⟩

theorem mul_cnt (z x y : Ser K) {nk nz : ℤ} (hnk : nk = min x.known y.known)
    (hnz : nz = min nk (relu (x.nonzero + y.nonzero - 1))) (hk : 0 ≤ nk) (hl : nz ≤ z.limit) :
    ∃ r, mul codeletKer z x y = .ok r ∧ r.limit = z.limit ∧ r.known = nk ∧ r.nonzero = nz := by
  subst hnk hnz
  have e : mul codeletKer z x y = .ok ((⟨z.limit, min x.known y.known,
      min (min x.known y.known) (relu (x.nonzero + y.nonzero - 1)), z.data⟩ : Ser K).loopSet
        (min (min x.known y.known) (relu (x.nonzero + y.nonzero - 1)))
        (naiveCoeff (x.lowSpan (min (min x.known y.known) (relu (x.nonzero + y.nonzero - 1))))
          (y.lowSpan (min (min x.known y.known) (relu (x.nonzero + y.nonzero - 1)))))) := by
    simp only [mul]
    rw [setCounts_ok' z (by simp only [relu]; omega) (by omega) hl, bok]
    rfl
  exact ⟨_, e, rfl, rfl, rfl⟩

theorem addsub_cnt (y x : Ser K) {sign b s nk nz : ℤ} (hnk : nk = min y.known (x.known + s))
    (hnz : nz = min nk (max y.nonzero (if x.nonzero ≠ 0 then x.nonzero + s else 0))) (hsg : sign = 1 ∨ sign = -1)
    (h0 : 0 ≤ nz) (hl : nz ≤ y.limit) :
    ∃ r, y.highAddsubLdexp sign b s x = .ok r ∧ r.limit = y.limit ∧ r.known = nk ∧ r.nonzero = nz := by
  subst hnk hnz
  simp only [highAddsubLdexp]
  rw [slowAssert_true ⟨hsg, hl⟩, bok, setCounts_ok' (y.loopSet _ _) h0 (by omega) hl]
  exact ⟨_, rfl, rfl, rfl, rfl⟩

theorem new_limit' {l : ℤ} (h : 0 ≤ l) (j : ℕ → K) : (new l j).limit = l := by
  simp only [new, relu]; omega

/-- `inv` in the code generator: the number of known terms, and no zero terms are dropped if `x` has none. -/
theorem inv_cnt (J : Junk K) (y x : Ser K) (h1 : 1 ≤ x.nonzero) (h2 : x.nonzero ≤ x.known) (hl : x.known ≤ y.limit) :
    ∃ r, inv codeletKer J y x = .ok r ∧ r.limit = y.limit ∧ r.known = x.known ∧ 1 ≤ r.nonzero ∧ r.nonzero ≤ r.known ∧
      (x.nonzero = x.known → r.nonzero = r.known) := by
  obtain ⟨n, hn⟩ : ∃ n : ℕ, x.known = n := ⟨x.known.toNat, by omega⟩
  obtain ⟨y0, e0, l0, k0, z0⟩ := loop_cnt y (k := 1) (z := 1) (by norm_num) le_rfl (by omega)
    (fun _ => 1 / if x.nonzero ≠ 0 then x.data 0 else 0)
  have := newtonIterate_rule (step := invStep codeletKer x) n
    (fun m st => st.1.limit = y.limit ∧ st.2.limit = n ∧ st.1.known = m ∧ 1 ≤ st.1.nonzero ∧ st.1.nonzero ≤ m ∧
      (x.nonzero = x.known → st.1.nonzero = m)) ?_ 1 (y0, new n (J [0])) (by omega) (by omega)
      ⟨l0, new_limit' (by omega) _, by simpa using k0, by simp only [z0]; omega, by simp only [z0]; omega,
        fun _ => by simp only [z0]; omega⟩
  · obtain ⟨st, e, hP⟩ := this
    refine ⟨st.1, ?_, hP.1, by rw [hP.2.2.1, hn], hP.2.2.2.1, by rw [hP.2.2.1]; exact hP.2.2.2.2.1,
      fun h => by rw [hP.2.2.1]; exact hP.2.2.2.2.2 h⟩
    simp only [inv]
    rw [if_neg (by omega), slowAssert_true (by omega), bok]
    have e0' : (codeletKer : Ker K).invBase y x = .ok y0 := e0
    rw [e0', bok, k0, hn]
    have e' : newtonIterate (invStep codeletKer x) 1 (n : ℤ) (y0, new n (J [0])) = .ok st := e
    rw [e', bok]
    rfl
  · rintro m0 m r ⟨y, dy⟩ hm0 hm hm2 hmn ⟨ly, ld, ky, zy, zy', zf⟩
    simp only at ly ld ky zy zy' zf
    obtain ⟨y1, e1, l1, k1, z1⟩ := setKnown_cnt y (m := m) (by omega)
    have hz1 : 1 ≤ y1.nonzero ∧ y1.nonzero ≤ m ∧ (x.nonzero = x.known → m0 ≤ y1.nonzero) := by
      rw [z1]
      refine ⟨by omega, by omega, fun h => ?_⟩
      have := zf h
      cases r <;> simp_all
    obtain ⟨d1, e2, l2, k2, z2⟩ := mul_cnt dy x y1 rfl rfl (by omega) (by omega)
    have hz2 : 1 ≤ d1.nonzero ∧ d1.nonzero ≤ m ∧ (x.nonzero = x.known → d1.nonzero = m) := by
      rw [z2, k1]; simp only [relu]
      exact ⟨by omega, by omega, fun h => by have := hz1.2.2 h; omega⟩
    obtain ⟨d2, e3, l3, k3, z3⟩ := addScalar_cnt d1 ((-1 : ℤ) : K) (by omega)
    obtain ⟨d3, e4, l4, k4, z4⟩ := mul_cnt d2 d2 y1 rfl rfl (by omega) (by omega)
    have hz4 : 1 ≤ d3.nonzero ∧ d3.nonzero ≤ m ∧ (x.nonzero = x.known → d3.nonzero = m) := by
      rw [z4, k1, k3, k2, k1, z3]; simp only [relu]
      exact ⟨by omega, by omega, fun h => by have := hz2.2.2 h; omega⟩
    have kh : (d3.high m0).known = m - m0 := by simp only [high, relu]; omega
    have zh : (d3.high m0).nonzero = max 0 (d3.nonzero - m0) := by simp only [high, relu]; omega
    obtain ⟨y2, e5, l5, k5, z5⟩ := addsub_cnt y1 (d3.high m0) (sign := -1) (b := 0) (s := m0) rfl rfl (Or.inr rfl)
      (by rw [kh, zh]; split_ifs <;> omega) (by rw [kh, zh]; split_ifs <;> omega)
    refine ⟨(y2, d3), ?_, by simp only; omega, by simp only; omega, by simp only; rw [k5, kh]; omega, ?_⟩
    · simp only [invStep]
      rw [e1, bok, e2, bok, e3, bok, e4, bok]
      have e5' : y1.highSub m0 (d3.high m0) = .ok y2 := e5
      rw [e5', bok]
      rfl
    · simp only
      rw [z5, kh, zh]
      refine ⟨by split_ifs <;> omega, by split_ifs <;> omega, fun h => ?_⟩
      have := hz4.2.2 h
      have := hz1.2.2 h
      split_ifs <;> omega

theorem low_cnt (x : Ser K) (h1 : 0 ≤ x.nonzero) (h2 : x.nonzero ≤ x.known) {n : ℤ} (hn : n = x.known) :
    (x.low n).known = x.known ∧ (x.low n).nonzero = x.nonzero := by
  subst hn; simp only [low, relu]; omega

theorem mul_cnt' (z x y : Ser K) {n : ℤ} (hx : x.known = n) (hy : y.known = n) (hx1 : 1 ≤ x.nonzero)
    (hx2 : x.nonzero ≤ n) (hy1 : 1 ≤ y.nonzero) (hl : n ≤ z.limit) :
    ∃ r, mul codeletKer z x y = .ok r ∧ r.limit = z.limit ∧ r.known = n ∧ 1 ≤ r.nonzero ∧ r.nonzero ≤ n := by
  obtain ⟨r, e, l, k, hz⟩ := mul_cnt z x y rfl rfl (by omega) (by omega)
  refine ⟨r, e, l, by omega, ?_, ?_⟩ <;> rw [hz] <;> simp only [relu] <;> omega

theorem sub_cnt' (y x : Ser K) {n : ℤ} (hx : x.known = n) (hy : y.known = n) (hy1 : 1 ≤ y.nonzero)
    (hy2 : y.nonzero ≤ n) (hl : n ≤ y.limit) :
    ∃ r, y.subAssign x = .ok r ∧ r.limit = y.limit ∧ r.known = n ∧ 1 ≤ r.nonzero ∧ r.nonzero ≤ n := by
  obtain ⟨r, e, l, k, hz⟩ := addsub_cnt y x (sign := -1) (b := 0) (s := 0) rfl rfl (Or.inr rfl) (by omega) (by omega)
  exact ⟨r, e, l, by omega, by omega, by omega⟩

theorem div_cnt (J : Junk K) (y a b : Ser K) {n : ℤ} (ha : a.known = n) (hb : b.known = n) (ha1 : 1 ≤ a.nonzero)
    (ha2 : a.nonzero ≤ n) (hb1 : 1 ≤ b.nonzero) (hb2 : b.nonzero ≤ n) (hl : n ≤ y.limit) :
    ∃ r, div codeletKer J y a b = .ok r ∧ r.limit = y.limit ∧ r.known = n ∧ 1 ≤ r.nonzero ∧ r.nonzero ≤ n := by
  have hmin : min a.known b.known = n := by omega
  obtain ⟨kl, zl⟩ := low_cnt b (by omega) (by omega) hb.symm
  have hln : (new n (J [0])).limit = n := new_limit' (by omega) _
  have hln2 : (new n (J [2])).limit = n := new_limit' (by omega) _
  obtain ⟨i, e1, l1, k1, z1, z1', -⟩ := inv_cnt (J.sub 1) (new n (J [0])) (b.low n) (by omega) (by omega) (by omega)
  obtain ⟨y1, e2, l2, k2, z2, z2'⟩ := mul_cnt' y a i (n := n) ha (by omega) ha1 ha2 z1 hl
  obtain ⟨d1, e3, l3, k3, z3, z3'⟩ := mul_cnt' (new n (J [2])) b y1 (n := n) hb k2 hb1 hb2 z2 (by omega)
  obtain ⟨d2, e4, l4, k4, z4, z4'⟩ := sub_cnt' d1 a (n := n) ha k3 z3 z3' (by omega)
  obtain ⟨d3, e5, l5, k5, z5, z5'⟩ := mul_cnt' d2 d2 i (n := n) k4 (by omega) z4 z4' z1 (by omega)
  obtain ⟨y2, e6, l6, k6, z6, z6'⟩ := sub_cnt' y1 d3 (n := n) k5 k2 z2 z2' (by omega)
  refine ⟨y2, ?_, by omega, k6, z6, z6'⟩
  simp only [div, hmin]
  rw [e1, bok, e2, bok, e3, bok, e4, bok, e5, bok]
  exact e6

theorem log_cnt (J : Junk K) (y x : Ser K) (h1 : 1 ≤ x.nonzero) (h2 : x.nonzero ≤ x.known) (hl : x.known ≤ y.limit) :
    ∃ r, log codeletKer J y x = .ok r ∧ r.limit = y.limit ∧ r.known = x.known ∧ 1 ≤ r.nonzero ∧ r.nonzero ≤ r.known := by
  have hln : (new x.known (J [0])).limit = x.known := new_limit' (by omega) _
  obtain ⟨d, e1, l1, k1, z1⟩ := loop_cnt (new x.known (J [0])) (k := x.known) (z := x.nonzero) (by omega) h2 (by omega)
    (fun i => ((0 + (i : ℤ) : ℤ) : K) * x.data i)
  obtain ⟨y1, e2, l2, k2, z2, z2'⟩ := div_cnt (J.sub 1) y d x k1 rfl (by omega) (by omega) h1 h2 hl
  obtain ⟨y2, e3, l3, k3, z3⟩ := loop_cnt y1 (k := y1.known) (z := y1.nonzero) (by omega) (by omega) (by omega)
    (fun i => if 0 + (i : ℤ) ≠ 0 then y1.data i / ((0 + (i : ℤ) : ℤ) : K) else 0)
  refine ⟨y2, ?_, by omega, by omega, by omega, by omega⟩
  simp only [log]
  rw [if_neg (by omega), slowAssert_true (by omega), bok]
  have hc : ¬ (codeletKer : Ker K).check = true := by simp [codeletKer]
  rw [if_neg hc]
  have e1' : (new x.known (J [0])).derivativeShift x 0 = .ok d := e1
  rw [e1', bok, e2, bok]
  exact e3

/-- `exp` in the code generator gives all terms if all terms of `x` are stored. -/
theorem exp_cnt (J : Junk K) (y x : Ser K) (h1 : 1 ≤ x.known) (h2 : x.nonzero = x.known) (hl : x.known ≤ y.limit) :
    ∃ r, exp codeletKer J y x = .ok r ∧ r.limit = y.limit ∧ r.known = x.known ∧ r.nonzero = x.known := by
  obtain ⟨n, hn⟩ : ∃ n : ℕ, x.known = n := ⟨x.known.toNat, by omega⟩
  obtain ⟨y0, e0, l0, k0, z0⟩ := loop_cnt y (k := 1) (z := 1) (by norm_num) le_rfl (by omega) (fun _ => (1 : K))
  have := newtonIterate_rule (step := expStep codeletKer (J.sub 1) x) n
    (fun m st => st.1.limit = y.limit ∧ st.2.limit = n ∧ st.1.known = m ∧ st.1.nonzero = m) ?_ 1 (y0, new n (J [0]))
      (by omega) (by omega) ⟨l0, new_limit' (by omega) _, by simpa using k0, by simpa using z0⟩
  · obtain ⟨st, e, hP⟩ := this
    refine ⟨st.1, ?_, hP.1, by rw [hP.2.2.1, hn], by rw [hP.2.2.2, hn]⟩
    simp only [exp]
    rw [if_neg (by omega)]
    have hc : ¬ (codeletKer : Ker K).check = true := by simp [codeletKer]
    rw [if_neg hc]
    have e0' : (codeletKer : Ker K).expBase y x = .ok y0 := e0
    rw [e0', bok, k0, hn]
    have e' : newtonIterate (expStep codeletKer (J.sub 1) x) 1 (n : ℤ) (y0, new n (J [0])) = .ok st := e
    rw [e', bok]
    rfl
  · rintro m0 m r ⟨y, dy⟩ hm0 hm hm2 hmn ⟨ly, ld, ky, zy⟩
    simp only at ly ld ky zy
    obtain ⟨y1, e1, l1, k1, z1⟩ := setKnown_cnt y (m := m) (by omega)
    have hz1 : (m0 : ℤ) ≤ y1.nonzero ∧ y1.nonzero ≤ m := by
      rw [z1, zy]
      cases r <;> simp <;> omega
    obtain ⟨d1, e2, l2, k2, z2, z2'⟩ := log_cnt (J.sub 1) dy y1 (by omega) (by omega) (by omega)
    obtain ⟨d2, e3, l3, k3, z3⟩ := addsub_cnt d1 x (sign := -1) (b := 0) (s := 0) rfl rfl (Or.inr rfl)
      (by split_ifs <;> omega) (by split_ifs <;> omega)
    have hz3 : d2.nonzero = m := by rw [z3]; split_ifs <;> omega
    obtain ⟨d3, e4, l4, k4, z4⟩ := mul_cnt d2 y1 d2 rfl rfl (by omega) (by omega)
    have hz4 : d3.nonzero = m := by rw [z4]; simp only [relu]; omega
    have kh : (d3.high m0).known = m - m0 := by simp only [high, relu]; omega
    have zh : (d3.high m0).nonzero = m - m0 := by simp only [high, relu]; omega
    obtain ⟨y2, e5, l5, k5, z5⟩ := addsub_cnt y1 (d3.high m0) (sign := -1) (b := 0) (s := m0) rfl rfl (Or.inr rfl)
      (by rw [kh, zh]; split_ifs <;> omega) (by rw [kh, zh]; split_ifs <;> omega)
    refine ⟨(y2, d3), ?_, by simp only; omega, by simp only; omega, by simp only; rw [k5, kh]; omega, ?_⟩
    · simp only [expStep]
      rw [e1, bok, e2, bok]
      have e3' : d1.subAssign x = .ok d2 := e3
      rw [e3', bok, e4, bok]
      have e5' : y1.highSub m0 (d3.high m0) = .ok y2 := e5
      rw [e5', bok]
      rfl
    · simp only
      rw [z5, kh, zh]
      split_ifs <;> omega

/-! ### The host's kernels -/

theorem serialBase_sim (leading : ℕ) {set : Junk K → Ser K → Ser K → Res (Ser K)} {J J' : Junk K}
    (hset : ∀ {y y' x x' : Ser K}, Dst y y' → SimL x x' → x.nonzero = 5 → x.known = 5 → y.limit = 5 →
      RelRes (fun a b => ∀ i < 5, a.data i = b.data i) (set (J.sub 1) y x) (set (J'.sub 1) y' x'))
    {y y' x x' : Ser K} (hy : Dst y y') (hx : Sim x x') :
    RelRes SimL (serialBase leading set J y x) (serialBase leading set J' y' x') := by
  have key : RelRes (fun a b => a.known = b.known ∧ a.nonzero = b.nonzero ∧ a.limit = b.limit ∧
      ∀ i : ℕ, (i : ℤ) < a.nonzero → a.data i = b.data i) (serialBase leading set J y x) (serialBase leading set J' y' x') := by
    simp only [serialBase, ← hx.known, ← hx.nonzero]
    refine RelRes.bind (setCounts_rel hy _ _) fun a b hab => ?_
    have hk := hx.left.wf.known_nonneg'
    by_cases h0 : min 5 x.known ≠ 0
    · rw [if_pos h0, if_pos h0]
      have hg : ∀ f : ℕ → K, (⟨5, 5, 5, f⟩ : Ser K).Good := fun f => ⟨⟨by norm_num, by norm_num, by norm_num⟩, by norm_num, by norm_num⟩
      refine RelRes.bind (hset (new_sim (by norm_num) _ _).dst (view_sim (y := ⟨5, 5, 5, fun i =>
        if i < leading then 0 else if (i : ℤ) < x.nonzero then x'.data i else 0⟩)
          ⟨hg _, hg _, rfl, rfl, fun i hi => ?_⟩) rfl rfl rfl) fun r r' hr => RelRes.pure ?_
      · simp only []
        split_ifs with h1 h2
        · rfl
        · exact hx.data i h2
        · rfl
      · refine ⟨by simp only [loopSet, hab], by simp only [loopSet, hab], hab.1, fun i hi => ?_⟩
        simp only [loopSet, hab] at hi
        simp only [loopSet, if_pos hi]
        exact hr i (by omega)
    · rw [if_neg h0, if_neg h0]
      exact RelRes.pure ⟨by rw [hab.2.1, hab.2.2.1], by rw [hab.2.2.2.1, hab.2.2.2.2], hab.1,
        fun i hi => by rw [hab.2.2.2.1] at hi; omega⟩
  exact key.mono fun u v e1 e2 h3 =>
    ⟨⟨serialBase_good hy.left hx.left e1, serialBase_good hy.right hx.right e2, h3.1, h3.2.1, h3.2.2.2⟩, h3.2.2.1⟩

theorem invBaseBody_sim {J J' : Junk K} {y y' x x' : Ser K} (hy : Dst y y') (hx : SimL x x') (hz : x.nonzero = 5)
    (hk : x.known = 5) (hl : y.limit = 5) :
    RelRes (fun a b => ∀ i < 5, a.data i = b.data i) (invBaseBody J y x) (invBaseBody J' y' x') := by
  have hs : RelRes SimL (invBaseBody J y x) (invBaseBody J' y' x') := by
    simp only [invBaseBody]
    rw [← hx.data 0 (by omega)]
    refine RelRes.bind (setScalar_sim (new_sim (by norm_num) _ _).dst (by norm_num) _) fun r r' hr => ?_
    refine RelRes.bind (mul_sim codeletKer_sim (new_sim (by norm_num) _ _).dst hr.toSim hx.toSim) fun rx rx' hrx => ?_
    refine RelRes.bind (inv_sim codeletKer_sim (new_sim (by norm_num) _ _).dst hrx.toSim) fun i i' hi => ?_
    exact mul_sim codeletKer_sim hy hr.toSim hi.toSim
  obtain ⟨u, e, hu⟩ : ∃ u, invBaseBody J y x = .ok u ∧ u.nonzero = 5 := by
    have e1 : (new 5 (J [0])).setScalar 5 (1 / x.data 0) = .ok ⟨5, 5, 1, fun i => if i = 0 then 1 / x.data 0 else J [0] i⟩ := by
      simp only [setScalar]
      rw [slowAssert_true (by simp [new, relu]), bok]
      simp [new, relu]
      rfl
    obtain ⟨rx, e2, l2, k2, z2⟩ := mul_cnt (new 5 (J [1])) ⟨5, 5, 1, fun i => if i = 0 then 1 / x.data 0 else J [0] i⟩ x
      (nk := 5) (nz := 5) (by simp only [hk]; rfl) (by simp only [hz]; rfl) (by norm_num) (by rw [new_limit' (by norm_num)])
    obtain ⟨i, e3, l3, k3, -, -, z3⟩ := inv_cnt (J.sub 2) (new 5 (J [3])) rx (by omega) (by omega)
      (by rw [new_limit' (by norm_num)]; omega)
    have z3 := z3 (by omega)
    obtain ⟨u, e4, l4, k4, z4⟩ := mul_cnt y ⟨5, 5, 1, fun i => if i = 0 then 1 / x.data 0 else J [0] i⟩ i
      (nk := 5) (nz := 5) (by simp only [k3, k2]; rfl) (by simp only [z3, k3, k2]; rfl) (by norm_num) (by omega)
    refine ⟨u, ?_, z4⟩
    simp only [invBaseBody]
    rw [e1, bok, e2, bok, e3, bok]
    exact e4
  refine hs.mono fun a b ea eb h => fun j hj => h.data j ?_
  rw [e] at ea
  cases ea
  omega

theorem expBody_sim {J J' : Junk K} {y y' x x' : Ser K} (hy : Dst y y') (hx : SimL x x') (hz : x.nonzero = 5)
    (hk : x.known = 5) (hl : y.limit = 5) :
    RelRes (fun a b => ∀ i < 5, a.data i = b.data i) (exp codeletKer J y x) (exp codeletKer J' y' x') := by
  obtain ⟨u, e, -, -, hu⟩ := exp_cnt J y x (by omega) (by omega) (by omega)
  refine (exp_sim codeletKer_sim hy hx.toSim).mono fun a b ea eb h => fun j hj => h.data j ?_
  rw [e] at ea
  cases ea
  omega

/-- Multiplication functions that look only at the cells of their operands. -/
structure Local (mul addmul : ℕ → Span K → Span K → Res (ℕ → K)) (sqr : ℕ → Span K → Res (ℕ → K)) : Prop where
  mul : ∀ n {x x' y y' : Span K}, x.Sim x' → y.Sim y' → RelRes (Below n) (mul n x y) (mul n x' y')
  addmul : ∀ n {x x' y y' : Span K}, x.Sim x' → y.Sim y' → RelRes (Below n) (addmul n x y) (addmul n x' y')
  sqr : ∀ n {x x' : Span K}, x.Sim x' → RelRes (Below n) (sqr n x) (sqr n x')

theorem hostKer_sim (J J' : Junk K) {mul addmul : ℕ → Span K → Span K → Res (ℕ → K)} {sqr : ℕ → Span K → Res (ℕ → K)}
    (h : Local mul addmul sqr) : (hostKer J mul addmul sqr).Sim (hostKer J' mul addmul sqr) where
  mul := h.mul
  addmul := h.addmul
  sqr := h.sqr
  invBase hy hx := serialBase_sim 0 invBaseBody_sim hy hx
  expBase hy hx := serialBase_sim 1 expBody_sim hy hx
  check := rfl

/-! ## Histories -/

/-- The same call, up to the contents of fresh memory.  `set_counts` is excluded: it can turn cells that were never written
into stored terms. -/
def _root_.Mandelbrot.SerOp.SameCall : SerOp K → SerOp K → Prop
  | .construct i limit _, .construct i' limit' _ => i = i' ∧ limit = limit'
  | .constructList i limit _ cs, .constructList i' limit' _ cs' => i = i' ∧ limit = limit' ∧ cs = cs'
  | .copy i j limit _, .copy i' j' limit' _ => i = i' ∧ j = j' ∧ limit = limit'
  | .setCounts .., _ => False
  | op, op' => op = op'

theorem ofList_sim {limit : ℤ} (h : limit < 2 ^ 63) (j j' : ℕ → K) (cs : List K) :
    RelRes SimL (ofList limit j cs) (ofList limit j' cs) := by
  have key : RelRes (fun a b => a.known = b.known ∧ a.nonzero = b.nonzero ∧ a.limit = b.limit ∧
      ∀ i : ℕ, (i : ℤ) < a.nonzero → a.data i = b.data i) (ofList limit j cs) (ofList limit j' cs) := by
    refine RelRes.bind (RelRes.assert Iff.rfl) fun _ _ _ => RelRes.pure ⟨rfl, rfl, rfl, fun i hi => ?_⟩
    simp only [Nat.cast_lt] at hi
    simp only [List.getD_eq_getElem _ _ hi]
  exact key.mono fun u v e1 e2 h3 => ⟨⟨ofList_good h e1, ofList_good h e2, h3.1, h3.2.1, h3.2.2.2⟩, h3.2.2.1⟩

theorem cleared_sim {x y : Ser K} : SimL x.cleared y.cleared :=
  ⟨⟨cleared_good _, cleared_good _, rfl, rfl, fun i hi => by simp only [cleared] at hi; omega⟩, rfl⟩

theorem update_sim {σ τ : ℕ → Ser K} (h : ∀ i, SimL (σ i) (τ i)) (i : ℕ) {x y : Ser K} (hx : SimL x y) (j : ℕ) :
    SimL (Function.update σ i x j) (Function.update τ i y j) := by
  rcases eq_or_ne j i with rfl | hj
  · rwa [Function.update_self, Function.update_self]
  · rw [Function.update_of_ne hj, Function.update_of_ne hj]; exact h j

theorem map_update_sim {σ τ : ℕ → Ser K} (h : ∀ i, SimL (σ i) (τ i)) (i : ℕ) {r s : Res (Ser K)} (hr : RelRes SimL r s) :
    RelRes (fun σ τ => ∀ i, SimL (σ i) (τ i)) (r.map (Function.update σ i)) (s.map (Function.update τ i)) := by
  cases r <;> cases s <;> simp only [RelRes] at hr
  · exact hr
  · exact update_sim h i hr

theorem step_sim (hker : ker.Sim ker') {J J' : Junk K} {σ τ : ℕ → Ser K} (h : ∀ i, SimL (σ i) (τ i))
    {op op' : SerOp K} (hop : op.Valid) (hs : op.SameCall op') :
    RelRes (fun σ τ => ∀ i, SimL (σ i) (τ i)) (step ker J σ op) (step ker' J' τ op') := by
  have hm := fun i => fun {r s} => map_update_sim h i (r := r) (s := s)
  have d := fun i => (h i).dst
  have t := fun i => (h i).toSim
  cases op with
  | construct i limit junk =>
    cases op' <;> simp only [SerOp.SameCall, reduceCtorEq] at hs
    obtain ⟨rfl, rfl⟩ := hs
    exact update_sim h _ (new_sim hop _ _)
  | constructList i limit junk cs =>
    cases op' <;> simp only [SerOp.SameCall, reduceCtorEq] at hs
    obtain ⟨rfl, rfl, rfl⟩ := hs
    exact hm _ (ofList_sim hop _ _ _)
  | copy i j limit junk =>
    cases op' <;> simp only [SerOp.SameCall, reduceCtorEq] at hs
    obtain ⟨rfl, rfl, rfl⟩ := hs
    exact hm _ (copy_sim (t j) hop _ _)
  | setCounts i known nonzero => exact hs.elim
  | move i j => cases hs; exact update_sim (update_sim h _ cleared_sim) _ (h j)
  | swap i j => cases hs; exact update_sim (update_sim h _ (h j)) _ (h i)
  | clear i => cases hs; exact update_sim h _ cleared_sim
  | setScalar i known a => cases hs; exact hm _ (setScalar_sim (d i) hop _)
  | assign i j => cases hs; exact hm _ (assign_sim (d i) (t j))
  | setUnknown i => cases hs; exact update_sim h _ (setUnknown_sim (d i))
  | setKnown i known => cases hs; exact hm _ (setKnown_sim (h i) hop)
  | reduceKnown i known => cases hs; exact hm _ (reduceKnown_sim (h i) _)
  | view i j => cases hs; exact update_sim h _ (view_sim (t j))
  | low i j n => cases hs; exact update_sim h _ (low_sim (t j) n)
  | high i j n => cases hs; exact update_sim h _ (high_sim (t j) n)
  | addScalar i a => cases hs; exact hm _ (addScalar_sim (h i) a)
  | addsub i sign b s j => cases hs; exact hm _ (addsub_sim (h i) (t j) _ _ hop)
  | neg i j => cases hs; exact hm _ (neg_sim (d i) (t j))
  | mul i j k => cases hs; exact hm _ (mul_sim hker (d i) (t j) (t k))
  | mul1p i j k s => cases hs; exact hm _ (mul1p_sim hker (d i) (t j) (t k) s)
  | sqr i j => cases hs; exact hm _ (sqr_sim hker (d i) (t j))
  | inv i j => cases hs; exact hm _ (inv_sim hker (d i) (t j))
  | inv1p i j s => cases hs; exact hm _ (inv1p_sim hker (d i) (t j) s)
  | div i j k => cases hs; exact hm _ (div_sim hker (d i) (t j) (t k))
  | div1p i j k s => cases hs; exact hm _ (div1p_sim hker (d i) (t j) (t k) s)
  | derivativeShift i j s => cases hs; exact hm _ (derivativeShift_sim (d i) (t j) s)
  | integralShift i j s => cases hs; exact hm _ (integralShift_sim (d i) (t j) s)
  | log i j => cases hs; exact hm _ (log_sim hker (d i) (t j))
  | log1p i j s => cases hs; exact hm _ (log1p_sim hker (d i) (t j) s)
  | exp i j => cases hs; exact hm _ (exp_sim hker (d i) (t j))
  | expm1 i j a s => cases hs; exact hm _ (expm1_sim hker (d i) (t j) a s)
  | log1pExp i j s => cases hs; exact hm _ (log1pExp_sim hker (d i) (t j) s)
  | ldexp i j b => cases hs; exact hm _ (ldexpSer_sim (d i) (t j) b)

theorem run_sim (hker : ker.Sim ker') {ops ops' : List (Junk K × SerOp K)}
    (hs : List.Forall₂ (fun a b => a.2.SameCall b.2) ops ops') : ∀ {σ τ : ℕ → Ser K}, (∀ i, SimL (σ i) (τ i)) →
    (∀ op ∈ ops, op.2.Valid) → RelRes (fun σ τ => ∀ i, SimL (σ i) (τ i)) (run ker σ ops) (run ker' τ ops') := by
  induction hs with
  | nil => intro σ τ h _; exact h
  | cons h1 _ ih =>
    intro σ τ h hv
    exact RelRes.bind (step_sim hker h (hv _ List.mem_cons_self) h1) fun _ _ h =>
      ih h fun o ho => hv o (List.mem_cons_of_mem _ ho)

end Ser

end Mandelbrot
