import Verif.Arb.SetArb

/-!
# A concrete interval arithmetic

The balls are the order hulls of sets of reals and the operations are exact images.  It shows that the contract
`Spec.ArbSound` can be met by intervals.
-/

namespace Mandelbrot

open PowerSeries

namespace ArbPoly

open Spec Classical

noncomputable section

/-- The interval spanned by a set. -/
def hull (b : Set ℝ) : Set ℝ := {y | ∃ x ∈ b, ∃ z ∈ b, x ≤ y ∧ y ≤ z}

theorem sub_hull {b : Set ℝ} {x : ℝ} (h : x ∈ b) : x ∈ hull b := ⟨x, h, x, h, le_rfl, le_rfl⟩

theorem hull_singleton (x : ℝ) : hull {x} = {x} := by
  ext y
  constructor
  · rintro ⟨a, rfl, b, rfl, h1, h2⟩
    exact le_antisymm h2 h1
  · exact fun h => sub_hull h

/-- Membership in the interval. -/
abbrev hmem : ℝ → Set ℝ → Prop := fun x b => x ∈ hull b

theorem hull_intervals : Intervals hmem := by
  rintro x y z b ⟨a, ha, -, -, h1, -⟩ ⟨-, -, c, hc, -, h2⟩ hxy hyz
  exact ⟨a, ha, c, hc, h1.trans hxy, hyz.trans h2⟩

/-- A point of the interval: the middle, or some point of an unbounded interval (the point 1 of the whole line). -/
def midh (b : Set ℝ) : ℝ := if b = Set.univ then 1 else midf b

theorem midh_mem {b : Set ℝ} {x : ℝ} (h : x ∈ b) : midh b ∈ b := by
  unfold midh
  split_ifs with h1
  · rw [h1]; trivial
  · exact midf_mem h

theorem hull_hull (b : Set ℝ) : hull (hull b) = hull b := by
  ext y
  constructor
  · rintro ⟨x, ⟨a, ha, -, -, h1, -⟩, z, ⟨-, -, c, hc, -, h2⟩, h3, h4⟩
    exact ⟨a, ha, c, hc, h1.trans h3, h4.trans h2⟩
  · exact fun h => sub_hull h

/-- The interval of the reciprocals of an interval does not have the middle zero. -/
theorem midh_inv_ne {b c : Set ℝ} (hb : hull b = b) (hc : ∀ z, z ∈ c ↔ ∃ x ∈ b, x ≠ 0 ∧ z = x⁻¹) (hne : c.Nonempty) :
    midh (hull c) ≠ 0 := by
  have hI : ∀ {x y z : ℝ}, x ∈ b → z ∈ b → x ≤ y → y ≤ z → y ∈ b := by
    intro x y z hx hz h1 h2
    rw [← hb]; exact ⟨x, hx, z, hz, h1, h2⟩
  obtain ⟨w, hw⟩ := hne
  by_cases hs : (∃ x ∈ b, x < 0) ∧ ∃ x ∈ b, 0 < x
  · obtain ⟨⟨p, hp, hp0⟩, q, hq, hq0⟩ := hs
    have hu : hull c = Set.univ := by
      refine Set.eq_univ_of_forall fun y => ?_
      have hy : (0 : ℝ) < |y| + 1 := by positivity
      have hyi : (0 : ℝ) < (|y| + 1)⁻¹ := inv_pos.2 hy
      refine ⟨_, (hc _).2 ⟨max p (-(|y| + 1)⁻¹), hI hp hq (le_max_left _ _)
        (max_le (hp0.le.trans hq0.le) (by linarith)), (max_lt hp0 (by linarith)).ne, rfl⟩, _,
        (hc _).2 ⟨min q (|y| + 1)⁻¹, hI hp hq (le_min (hp0.le.trans hq0.le) (by linarith)) (min_le_left _ _),
          (lt_min hq0 hyi).ne', rfl⟩, ?_, ?_⟩
      · have h1 : (max p (-(|y| + 1)⁻¹)) < 0 := max_lt hp0 (by linarith)
        have h2 : -(|y| + 1)⁻¹ ≤ max p (-(|y| + 1)⁻¹) := le_max_right _ _
        have h3 := (inv_le_inv_of_neg h1 (by linarith : -(|y| + 1)⁻¹ < 0)).2 h2
        rw [inv_neg, inv_inv] at h3
        linarith [neg_abs_le y]
      · have h1 := lt_min hq0 hyi
        have h2 : min q (|y| + 1)⁻¹ ≤ (|y| + 1)⁻¹ := min_le_right _ _
        have h3 := (inv_le_inv₀ hyi h1).2 h2
        rw [inv_inv] at h3
        linarith [le_abs_self y]
    rw [midh, if_pos hu]
    exact one_ne_zero
  · have h0 : (0 : ℝ) ∉ hull c := by
      rintro ⟨x, hx, z, hz, h1, h2⟩
      obtain ⟨x', hx', hx0, rfl⟩ := (hc x).1 hx
      obtain ⟨z', hz', hz0, rfl⟩ := (hc z).1 hz
      exact hs ⟨⟨x', hx', lt_of_le_of_ne (inv_nonpos.1 h1) hx0⟩, z', hz', lt_of_le_of_ne (inv_nonneg.1 h2) hz0.symm⟩
    intro h
    exact h0 (h ▸ midh_mem (sub_hull hw))

/-- Intervals as balls. -/
def hullArb (W : ℕ → Set ℝ) : Arb (Set ℝ) :=
  let S := setArb W
  { zero := {0}
    one := {1}
    add := fun b c => S.add (hull b) (hull c)
    sub := fun b c => S.sub (hull b) (hull c)
    neg := fun b => S.neg (hull b)
    mul := fun b c => S.mul (hull b) (hull c)
    sqr := fun b => S.sqr (hull b)
    mulSi := fun b k => S.mulSi (hull b) k
    divSi := fun b k => S.divSi (hull b) k
    addmulSi := fun b c k => S.addmulSi (hull b) (hull c) k
    mul2exp := fun b k => S.mul2exp (hull b) k
    log := fun b => S.log (hull b)
    exp := fun b => S.exp (hull b)
    pi := {Real.pi}
    mid := fun b => {midh (hull b)}
    inter := fun b c => hull b ∩ hull c
    radSym := fun b => {d | ∃ y ∈ hull b, d = y - midh (hull b) ∨ d = midh (hull b) - y}
    overlaps := fun b c => S.overlaps (hull b) (hull c)
    containsZero := fun b => S.containsZero (hull b)
    isPositive := fun b => S.isPositive (hull b)
    isOne := fun b => S.isOne (hull b)
    addSi := fun P k => S.addSi (P.map hull) k
    negP := fun P => S.negP (P.map hull)
    scalar2exp := fun P k => S.scalar2exp (P.map hull) k
    derivative := fun P => S.derivative (P.map hull)
    integral := fun P => S.integral (P.map hull)
    addSeries := fun P Q n => S.addSeries (P.map hull) (Q.map hull) n
    subSeries := fun P Q n => S.subSeries (P.map hull) (Q.map hull) n
    mullow := fun P Q n => S.mullow (P.map hull) (Q.map hull) n
    invSeries := fun P n => S.invSeries (P.map hull) n
    divSeries := fun P Q n => S.divSeries (P.map hull) (Q.map hull) n
    expSeries := fun P n => S.expSeries (P.map hull) n
    logSeries := fun P n => S.logSeries (P.map hull) n
    log1pSeries := fun P n => S.log1pSeries (P.map hull) n }

theorem getD_map_hull (P : List (Set ℝ)) (i : ℕ) : (P.map hull).getD i {0} = hull (P.getD i {0}) := by
  by_cases h : i < P.length
  · rw [List.getD_eq_getElem _ _ (by simpa using h), List.getElem_map, List.getD_eq_getElem _ _ h]
  · rw [List.getD_eq_default _ _ (by simpa using h), List.getD_eq_default _ _ (by omega), hull_singleton]

theorem enc_hull {n : ℕ} {P : List (Set ℝ)} {F : ℝ⟦X⟧} :
    Encloses hmem {0} n P F ↔ Encloses smem {0} n (P.map hull) F := by
  constructor <;> intro h i hi
  · show _ ∈ _; rw [getD_map_hull]; exact h i hi
  · have := h i hi
    rw [getD_map_hull] at this; exact this

theorem enc_sub {n : ℕ} {P : List (Set ℝ)} {F : ℝ⟦X⟧} (h : Encloses smem {0} n P F) : Encloses hmem {0} n P F :=
  fun i hi => sub_hull (h i hi)

theorem hullArb_sound (W : ℕ → Set ℝ) (hW : ∀ i, (0 : ℝ) ∈ W i) : ArbSound (hullArb W) hmem :=
  have S := setArb_sound W hW
  { zero := fun x => by show x ∈ hull {0} ↔ _; rw [hull_singleton]; rfl
    one := sub_hull rfl
    add := fun h h' => sub_hull (S.add h h')
    sub := fun h h' => sub_hull (S.sub h h')
    neg := fun h => sub_hull (S.neg h)
    mul := fun h h' => sub_hull (S.mul h h')
    sqr := fun h => sub_hull (S.sqr h)
    mulSi := fun k h => sub_hull (S.mulSi k h)
    divSi := fun k hk h => sub_hull (S.divSi k hk h)
    addmulSi := fun k h h' => sub_hull (S.addmulSi k h h')
    mul2exp := fun k h => sub_hull (S.mul2exp k h)
    log := fun hx h => sub_hull (S.log hx h)
    exp := fun h => sub_hull (S.exp h)
    pi := sub_hull rfl
    mid := fun {x b} h => ⟨midh (hull b), midh_mem h, sub_hull rfl,
      fun y hy => ⟨sub_hull ⟨y, hy, Or.inl rfl⟩, sub_hull ⟨y, hy, Or.inr rfl⟩⟩⟩
    inter := fun h h' => sub_hull ⟨h, h'⟩
    overlaps := fun h h' => S.overlaps h h'
    containsZero := fun h => S.containsZero h
    isPositive := fun h h' => S.isPositive h h'
    isOne := fun h h' => S.isOne h h'
    addSi := fun k h => enc_sub (S.addSi k (enc_hull.1 h))
    negP := fun h => enc_sub (S.negP (enc_hull.1 h))
    negP_length := fun P => (S.negP_length _).trans_eq (List.length_map _)
    scalar2exp := fun k h => enc_sub (S.scalar2exp k (enc_hull.1 h))
    derivative := fun h => enc_sub (S.derivative (enc_hull.1 h))
    integral := fun h0 h => enc_sub (S.integral h0 (enc_hull.1 h))
    addSeries := fun h h' => enc_sub (S.addSeries (enc_hull.1 h) (enc_hull.1 h'))
    subSeries := fun h h' => enc_sub (S.subSeries (enc_hull.1 h) (enc_hull.1 h'))
    subSeries_length := fun P Q n => S.subSeries_length _ _ n
    mullow := fun h h' => enc_sub (S.mullow (enc_hull.1 h) (enc_hull.1 h'))
    invSeries := fun hc h => enc_sub (S.invSeries hc (enc_hull.1 h))
    invSeries_mid := fun {n P F} hn hc h => by
      have h1 : hmem (coeff 0 F⁻¹) (((hullArb W).invSeries P n).getD 0 (hullArb W).zero) :=
        enc_sub (S.invSeries hc (enc_hull.1 h)) 0 hn
      have h2 := enc_hull.1 h
      have e : ((hullArb W).invSeries P n).getD 0 (hullArb W).zero =
          {c | ∃ G ∈ {H | ∃ F ∈ box n (P.map hull), constantCoeff F ≠ 0 ∧ H = F⁻¹}, c = coeff 0 G} := by
        show (img n _).getD 0 {0} = _
        rw [img, getD_map_range, if_pos hn]
      refine ⟨midh (hull (((hullArb W).invSeries P n).getD 0 (hullArb W).zero)), ?_, midh_mem h1, sub_hull rfl⟩
      rw [e]
      refine midh_inv_ne (b := hull (P.getD 0 {0})) (hull_hull _) ?_ ⟨_, F⁻¹, ⟨F, h2, hc, rfl⟩, rfl⟩
      intro z
      constructor
      · rintro ⟨G, ⟨F', hF', hc', rfl⟩, rfl⟩
        have := hF' 0 hn
        rw [getD_map_hull, coeff_zero_eq_constantCoeff_apply] at this
        exact ⟨_, this, hc', by rw [coeff_zero_eq_constantCoeff_apply, constantCoeff_inv]⟩
      · rintro ⟨x, hx, hx0, rfl⟩
        have hcc : constantCoeff (F + C (x - constantCoeff F)) = x := by simp
        refine ⟨_, ⟨F + C (x - constantCoeff F), ?_, by rw [hcc]; exact hx0, rfl⟩, ?_⟩
        · intro i hi
          rcases i with _ | i
          · rw [getD_map_hull, coeff_zero_eq_constantCoeff_apply, hcc]
            exact hx
          · rw [map_add, coeff_C, if_neg (Nat.succ_ne_zero i), add_zero]
            exact h2 _ hi
        · rw [coeff_zero_eq_constantCoeff_apply, constantCoeff_inv, hcc]
    divSeries := fun hc h h' => enc_sub (S.divSeries hc (enc_hull.1 h) (enc_hull.1 h'))
    expSeries := fun h => enc_sub (S.expSeries (enc_hull.1 h))
    expSeries_length := fun P n => S.expSeries_length _ n
    logSeries := fun hc h => enc_sub (S.logSeries hc (enc_hull.1 h))
    log1pSeries := fun hc h => enc_sub (S.log1pSeries hc (enc_hull.1 h)) }

/-! ### Single points -/

theorem hull_const {b : Set ℝ} {v : ℝ} (h : ∀ x ∈ b, x = v) {x : ℝ} (hx : x ∈ hull b) : x = v := by
  obtain ⟨a, ha, c, hc, h1, h2⟩ := hx
  rw [h a ha] at h1
  rw [h c hc] at h2
  exact le_antisymm h2 h1

theorem hull_subsingleton {b : Set ℝ} (h : b.Subsingleton) : (hull b).Subsingleton := by
  rintro x ⟨a, ha, c, hc, h1, h2⟩ y hy
  rw [hull_const (v := a) (fun z hz => h hz ha) ⟨a, ha, c, hc, h1, h2⟩,
    hull_const (v := a) (fun z hz => h hz ha) hy]

theorem Pt.hull {P : List (Set ℝ)} (h : Pt P) : Pt (P.map hull) := fun i => by
  rw [getD_map_hull]; exact hull_subsingleton (h i)

variable (W : ℕ → Set ℝ)

theorem pth_intersectSub {R P Q r : List (Set ℝ)} {n : ℕ} (h : intersectSub (hullArb W) R P Q n = .ok r) (hR : Pt R) :
    Pt r := by
  rw [intersectSub_eq h]
  intro i
  rw [getD_map_range]
  split_ifs with hi
  · exact (hull_subsingleton (hR i)).anti Set.inter_subset_left
  · exact Set.subsingleton_singleton

theorem pth_invRefine {x r : List (Set ℝ)} {n : ℤ} (h : invRefine (hullArb W) false x n = .ok r) (hx : Pt x) : Pt r := by
  unfold invRefine at h
  simp only [Bool.false_eq_true, if_false] at h
  split_ifs at h with h0
  · cases h; intro i; exact Set.subsingleton_singleton
  · exact pth_intersectSub W h (pt_invSeries W hx.hull _)

theorem pth_divRefine {a b r : List (Set ℝ)} {n : ℤ} (h : divRefine (hullArb W) false a b n = .ok r) (ha : Pt a)
    (hb : Pt b) : Pt r := by
  unfold divRefine at h
  simp only [Bool.false_eq_true, if_false] at h
  split_ifs at h with h0
  · cases h; intro i; exact Set.subsingleton_singleton
  · cases e : invRefine (hullArb W) false b n with
    | error e' => rw [e] at h; cases h
    | ok i =>
      rw [e, bok] at h
      exact pth_intersectSub W h (pt_mullow W ha.hull (pth_invRefine W e hb).hull _)

theorem pth_logRefine {x r : List (Set ℝ)} {n : ℤ} (h : logRefine (hullArb W) false x n = .ok r) (hx : Pt x)
    (h1 : (hullArb W).isOne (get (hullArb W) x 0) = true) : Pt r := by
  unfold logRefine at h
  simp only [Bool.false_eq_true, if_false] at h
  split_ifs at h with h0
  · cases h; intro i; exact Set.subsingleton_singleton
  · simp only [slowAssert] at h
    split_ifs at h with h3
    · rw [bok] at h
      cases e : divRefine (hullArb W) false ((hullArb W).derivative x) x (n - 1) with
      | error e' => rw [e] at h; cases h
      | ok y =>
        rw [e, bok] at h
        simp only [pok] at h
        cases h
        exact pt_integral W (pth_divRefine W e (pt_derivative W hx.hull) hx).hull
    · cases h

end

end ArbPoly

end Mandelbrot
