import Verif.Arb.Series

/-!
# Enclosure lemmas for the model of /repo/poly.cc
-/

namespace Mandelbrot

open PowerSeries

namespace ArbPoly

open Spec

variable {B : Type} {A : Arb B} {mem : ℝ → B → Prop}

/-! ### Lists and outcomes -/

theorem mapM_ok {α β : Type} {f : α → Res β} {g : α → β} :
    ∀ l : List α, (∀ a ∈ l, f a = .ok (g a)) → l.mapM f = .ok (l.map g)
  | [], _ => rfl
  | a :: l, h => by
    rw [List.mapM_cons, h a (by simp), bok, mapM_ok l (fun b hb => h b (by simp [hb])), bok]; rfl

theorem forM_ok {α : Type} {f : α → Res Unit} :
    ∀ l : List α, (∀ a ∈ l, f a = .ok ()) → l.forM f = .ok ()
  | [], _ => rfl
  | a :: l, h => by
    show (f a >>= fun _ => l.forM f) = _
    rw [h a (by simp), bok]
    exact forM_ok l (fun b hb => h b (by simp [hb]))

theorem getD_map_range (f : ℕ → B) (n i : ℕ) (z : B) :
    ((List.range n).map f).getD i z = if i < n then f i else z := by
  split_ifs with h
  · rw [List.getD_eq_getElem _ _ (by simpa using h)]; simp
  · rw [List.getD_eq_default _ _ (by simpa using h)]

/-! ### Encloses -/

theorem enc_mono {n m : ℕ} {P : List B} {F : ℝ⟦X⟧} (h : Encloses mem A.zero n P F) (hm : m ≤ n) :
    Encloses mem A.zero m P F := fun i hi => h i (hi.trans_le hm)

theorem enc_congr {n : ℕ} {P : List B} {F G : ℝ⟦X⟧} (h : Encloses mem A.zero n P F) (e : Agree n F G) :
    Encloses mem A.zero n P G := fun i hi => e i hi ▸ h i hi

theorem enc_zero (P : List B) (F : ℝ⟦X⟧) : Encloses mem A.zero 0 P F := fun i hi => absurd hi (Nat.not_lt_zero i)

theorem enc_nil (S : ArbSound A mem) {n : ℕ} {F : ℝ⟦X⟧} : Encloses mem A.zero n [] F ↔ Agree n F 0 := by
  unfold Encloses Agree
  simp only [List.getD_nil, S.zero, map_zero]

/-- A coefficient beyond the end of the polynomial is zero. -/
theorem enc_beyond (S : ArbSound A mem) {n i : ℕ} {P : List B} {F : ℝ⟦X⟧} (h : Encloses mem A.zero n P F) (hi : i < n)
    (hP : P.length ≤ i) : coeff i F = 0 := by
  have := h i hi
  rwa [List.getD_eq_default _ _ hP, S.zero] at this

/-- `F` cut off after `n` terms. -/
noncomputable def cut (n : ℕ) (F : ℝ⟦X⟧) : ℝ⟦X⟧ := mk fun i => if i < n then coeff i F else 0

theorem agree_cut (n : ℕ) (F : ℝ⟦X⟧) : Agree n (cut n F) F := fun i hi => by rw [cut, coeff_mk, if_pos hi]

theorem enc_cut (S : ArbSound A mem) {n : ℕ} {P : List B} {F : ℝ⟦X⟧} (h : Encloses mem A.zero n P F) (hP : P.length ≤ n)
    (m : ℕ) : Encloses mem A.zero m P (cut n F) := by
  intro i _
  rw [cut, coeff_mk]
  split_ifs with hi
  · exact h i hi
  · rw [List.getD_eq_default _ _ (by omega), S.zero]

theorem enc_trunc {n m : ℕ} {P : List B} {F : ℝ⟦X⟧} (h : Encloses mem A.zero n P F) (hm : n ≤ m) :
    Encloses mem A.zero n (trunc P m) F := by
  intro i hi
  have := h i hi
  unfold trunc
  rwa [List.getD_eq_getElem?_getD, List.getElem?_take_of_lt (by omega), ← List.getD_eq_getElem?_getD]

theorem trunc_length (P : List B) (n : ℕ) : (trunc P n).length ≤ n := by
  unfold trunc; rw [List.length_take]; omega

theorem enc_shiftLeft (S : ArbSound A mem) {n : ℕ} (s : ℕ) {P : List B} {F : ℝ⟦X⟧} (h : Encloses mem A.zero n P F) :
    Encloses mem A.zero (n + s) (shiftLeft A P s) (X ^ s * F) := by
  rcases P with _ | ⟨p, P⟩
  · show Encloses mem A.zero (n + s) [] _
    rw [enc_nil S] at h ⊢
    have := Agree.X_pow_mul s h
    rwa [mul_zero] at this
  · intro i hi
    show mem _ ((List.replicate s A.zero ++ p :: P).getD i A.zero)
    rw [coeff_X_pow_mul', List.getD_eq_getElem?_getD]
    split_ifs with hs
    · rw [List.getElem?_append_right (by simpa using hs), ← List.getD_eq_getElem?_getD, List.length_replicate]
      exact h _ (by omega)
    · rw [List.getElem?_append_left (by simpa using hs), List.getElem?_replicate_of_lt (by omega)]
      exact (S.zero 0).2 rfl

theorem enc_shiftRight {n : ℕ} (s : ℕ) {P : List B} {F G : ℝ⟦X⟧} (h : Encloses mem A.zero (n + s) P F)
    (e : Agree (n + s) F (X ^ s * G)) : Encloses mem A.zero n (shiftRight P s) G := by
  intro i hi
  have h1 := h (i + s) (by omega)
  rw [e _ (by omega), coeff_X_pow_mul', if_pos (by omega), Nat.add_sub_cancel] at h1
  unfold shiftRight
  rwa [List.getD_eq_getElem?_getD, List.getElem?_drop, ← List.getD_eq_getElem?_getD, add_comm]

theorem enc_one (S : ArbSound A mem) {n : ℕ} {P : List B} {F : ℝ⟦X⟧} (h : Encloses mem A.zero n P F) :
    Encloses mem A.zero n (A.addSi P 1) (1 + F) := by
  have := S.addSi 1 h
  rw [Int.cast_one, map_one, add_comm] at this
  exact this

/-! ### Midpoints and intersections -/

theorem polyMid_getD (P : List B) (i : ℕ) :
    (polyMid A P).getD i A.zero = if i < P.length then A.mid (P.getD i A.zero) else A.zero := by
  unfold polyMid
  split_ifs with h
  · rw [List.getD_eq_getElem _ _ (by simpa using h), List.getElem_map, List.getD_eq_getElem _ _ h]
  · rw [List.getD_eq_default _ _ (by simpa using h)]

/-- There is a series in the box whose coefficients are midpoints. -/
theorem exists_mid (S : ArbSound A mem) {n : ℕ} {P : List B} {F : ℝ⟦X⟧} (h : Encloses mem A.zero n P F) :
    ∃ Y0 : ℝ⟦X⟧, Encloses mem A.zero n P Y0 ∧ Encloses mem A.zero n (polyMid A P) Y0 ∧
      ∀ G, Encloses mem A.zero n P G → ∀ i < n, mem (coeff i (G - Y0)) (A.radSym (P.getD i A.zero)) ∧
        mem (coeff i (Y0 - G)) (A.radSym (P.getD i A.zero)) := by
  have hm : ∀ i, ∃ m, i < n → mem m (P.getD i A.zero) ∧ mem m (A.mid (P.getD i A.zero)) ∧
      ∀ y, mem y (P.getD i A.zero) → mem (y - m) (A.radSym (P.getD i A.zero)) ∧
        mem (m - y) (A.radSym (P.getD i A.zero)) := by
    intro i
    by_cases hi : i < n
    · obtain ⟨m, h1⟩ := S.mid (h i hi)
      exact ⟨m, fun _ => h1⟩
    · exact ⟨0, fun h => absurd h hi⟩
  choose m hm using hm
  refine ⟨mk m, ?_, ?_, ?_⟩
  · intro i hi; rw [coeff_mk]; exact (hm i hi).1
  · intro i hi
    rw [coeff_mk, polyMid_getD]
    split_ifs with hl
    · exact (hm i hi).2.1
    · have := (hm i hi).1
      rwa [List.getD_eq_default _ _ (by omega)] at this
  · intro G hG i hi
    rw [map_sub, map_sub, coeff_mk]
    exact (hm i hi).2.2 _ (hG i hi)

/-- `poly_intersect_sub` does not throw when a series is enclosed on both sides, and encloses it. -/
theorem intersectSub_enc (S : ArbSound A mem) {n n' : ℕ} {P Q R : List B} {F G H : ℝ⟦X⟧}
    (hR : Encloses mem A.zero n R F) (hn : min n' R.length = min n R.length) (hP : Encloses mem A.zero n' P G)
    (hQ : Encloses mem A.zero n' Q H) (e : Agree n' F (G - H)) :
    ∃ r, intersectSub A R P Q n' = .ok r ∧ Encloses mem A.zero n r F ∧ r.length ≤ n := by
  set N := min (min n' R.length) (max P.length Q.length) with hN
  have key : ∀ i, i < n' → i < R.length → i < n → mem (coeff i F) (A.sub (get A P i) (get A Q i)) := by
    intro i h1 _ _
    rw [e i h1, map_sub]
    exact S.sub (hP i h1) (hQ i h1)
  refine ⟨(List.range N).map fun i => A.inter (get A R i) (A.sub (get A P i) (get A Q i)), ?_, ?_, ?_⟩
  · unfold intersectSub
    refine mapM_ok _ fun i hi => ?_
    rw [List.mem_range] at hi
    have ho : A.overlaps (get A R i) (A.sub (get A P i) (get A Q i)) = true :=
      S.overlaps (hR i (by omega)) (key i (by omega) (by omega) (by omega))
    simp only [slowAssert, if_pos ho, bok, pok]
  · intro i hi
    rw [getD_map_range]
    split_ifs with h
    · exact S.inter (hR i hi) (key i (by omega) (by omega) hi)
    · rw [S.zero]
      by_cases h2 : R.length ≤ i
      · exact enc_beyond S hR hi h2
      · have h3 : i < n' := by omega
        rw [e i h3, map_sub, enc_beyond S hP h3 (by omega), enc_beyond S hQ h3 (by omega), sub_zero]
  · rw [List.length_map, List.length_range]; omega

theorem assertLowZero_ok (S : ArbSound A mem) {n m : ℕ} {P : List B} {F : ℝ⟦X⟧} (h : Encloses mem A.zero n P F)
    (hm : m ≤ n) (e : Agree m F 0) : assertLowZero A P m = .ok () := by
  unfold assertLowZero
  refine forM_ok _ fun i hi => ?_
  rw [List.mem_range] at hi
  have := h i (by omega)
  rw [e i hi, map_zero] at this
  exact slowAssert_true (S.containsZero this)

/-! ### Inverse and quotient -/

theorem toNat_pos {n : ℤ} (h : ¬ n ≤ 0) : 0 < n.toNat := by omega

theorem invRefine_enc (S : ArbSound A mem) (skip : Bool) {n : ℤ} {x : List B} {F : ℝ⟦X⟧}
    (hF : constantCoeff F ≠ 0) (h : Encloses mem A.zero n.toNat x F) :
    ∃ y, invRefine A skip x n = .ok y ∧ Encloses mem A.zero n.toNat y F⁻¹ := by
  unfold invRefine
  split_ifs with h0 hs
  · rw [show n.toNat = 0 by omega]
    exact ⟨_, rfl, enc_zero _ _⟩
  · exact ⟨_, rfl, S.invSeries hF h⟩
  have hn := toNat_pos h0
  generalize n.toNat = k at h hn
  set y := A.invSeries x k with hy
  have hY := S.invSeries hF h
  rw [← hy] at hY
  -- midpoints
  obtain ⟨Z, hZ1, hZ2, -⟩ := exists_mid S hY
  obtain ⟨m, hm0, hm1, hm2⟩ := S.invSeries_mid hn hF h
  rw [← hy] at hm1 hm2
  have hy0 : 0 < y.length := by
    by_contra hc
    rw [List.getD_eq_default _ _ (by omega), S.zero] at hm1
    exact hm0 hm1
  set Y0 : ℝ⟦X⟧ := mk fun i => if i = 0 then m else coeff i Z with hY0
  have hY01 : Encloses mem A.zero k y Y0 := by
    intro i hi
    rw [hY0, coeff_mk]
    split_ifs with h1
    · rw [h1]; exact hm1
    · exact hZ1 i hi
  have hY02 : Encloses mem A.zero k (polyMid A y) Y0 := by
    intro i hi
    rw [hY0, coeff_mk]
    split_ifs with h1
    · rw [h1, polyMid_getD, if_pos hy0]; exact hm2
    · exact hZ2 i hi
  have hc : constantCoeff Y0 ≠ 0 := by
    rw [← coeff_zero_eq_constantCoeff_apply, hY0, coeff_mk, if_pos rfl]; exact hm0
  have hFF : F * F⁻¹ = 1 := PowerSeries.mul_inv_cancel F hF
  have hYY : Y0 * Y0⁻¹ = 1 := PowerSeries.mul_inv_cancel Y0 hc
  set N := min k y.length with hN
  have hNk : N ≤ k := by omega
  have e1 := S.mullow (enc_mono h hNk) (enc_mono hY02 hNk)
  have e2 := S.addSi (-1) e1
  have e3 := S.mullow e2 (enc_mono hY02 hNk)
  have e4 := S.divSeries hc (enc_mono hY hNk) (enc_mono hY02 hNk)
  have e5 := S.divSeries hc (enc_mono hY01 hNk) (enc_mono hY02 hNk)
  have e6 := S.mullow e4 e5
  have e7 := S.mullow e3 e6
  obtain ⟨r, hr1, hr2, -⟩ := intersectSub_enc S hY (n' := N) (by omega) (enc_mono hY02 hNk) e7
    (Agree.of_eq (by
      rw [Int.cast_neg, Int.cast_one, map_neg, map_one]
      linear_combination ((F * Y0 * F⁻¹ - F⁻¹) * (Y0 * Y0⁻¹ + 1)) * hYY + Y0 * hFF))
  exact ⟨r, hr1, hr2⟩

theorem divRefine_enc (S : ArbSound A mem) (skip : Bool) {n : ℤ} {a b : List B} {F G : ℝ⟦X⟧}
    (hG : constantCoeff G ≠ 0) (ha : Encloses mem A.zero n.toNat a F) (hb : Encloses mem A.zero n.toNat b G) :
    ∃ y, divRefine A skip a b n = .ok y ∧ Encloses mem A.zero n.toNat y (F * G⁻¹) := by
  unfold divRefine
  split_ifs with h0 hs
  · rw [show n.toNat = 0 by omega]
    exact ⟨_, rfl, enc_zero _ _⟩
  · exact ⟨_, rfl, S.divSeries hG ha hb⟩
  obtain ⟨i, hi1, hi2⟩ := invRefine_enc S skip hG hb
  rw [hi1, bok]
  generalize n.toNat = k at ha hb hi2
  have hY := S.mullow ha hi2
  obtain ⟨Y0, -, h2, -⟩ := exists_mid S hY
  have e1 := S.mullow hb h2
  have e2 := S.subSeries e1 ha
  have e3 := S.mullow e2 hi2
  have hGG : G * G⁻¹ = 1 := PowerSeries.mul_inv_cancel G hG
  obtain ⟨r, hr1, hr2, -⟩ := intersectSub_enc S hY (n' := k) rfl h2 e3
    (Agree.of_eq (by linear_combination Y0 * hGG))
  exact ⟨r, hr1, hr2⟩

/-! ### Logarithms -/

theorem addArb_enc (S : ArbSound A mem) {n : ℕ} {f : List B} {a : B} {F : ℝ⟦X⟧} {c : ℝ} (h : Encloses mem A.zero n f F)
    (hc : mem c a) : Encloses mem A.zero n (addArb A f a) (C c + F) := by
  intro i hi
  have h1 := h i hi
  rw [map_add, coeff_C]
  rcases f with _ | ⟨f0, l⟩ <;> rcases i with _ | i
  · rw [List.getD_nil, S.zero] at h1
    simpa [addArb, h1] using hc
  · rw [List.getD_nil] at h1
    simpa [addArb] using h1
  · rw [if_pos rfl, add_comm]
    exact S.add h1 hc
  · simpa [addArb] using h1

theorem logRefine_enc (S : ArbSound A mem) (skip : Bool) {n : ℤ} {x : List B} {F : ℝ⟦X⟧} (hF : 0 < constantCoeff F)
    (hp : skip = false → 0 < n → A.isPositive (get A x 0) = true) (h : Encloses mem A.zero n.toNat x F) :
    ∃ y, logRefine A skip x n = .ok y ∧ Encloses mem A.zero n.toNat y (rlog F) := by
  unfold logRefine
  split_ifs with h0 hs
  · rw [show n.toNat = 0 by omega]
    exact ⟨_, rfl, enc_zero _ _⟩
  · exact ⟨_, rfl, S.logSeries hF h⟩
  have hp := hp (by simpa using hs) (by omega)
  have hn : n.toNat = (n - 1).toNat + 1 := by omega
  rw [hn] at h ⊢
  have hd := S.derivative h
  obtain ⟨y, hy1, hy2⟩ := divRefine_enc S skip hF.ne' hd (enc_mono h (Nat.le_succ _))
  rw [← deriv_rlog hF.ne'] at hy2
  have hc := constantCoeff_rlog hF.ne'
  set c := Real.log (constantCoeff F) with hcdef
  have hd' : d⁄dX ℝ (rlog F - C c) = d⁄dX ℝ (rlog F) := by
    have : d⁄dX ℝ (C c : ℝ⟦X⟧) = 0 := derivative_C ..
    rw [map_sub, this, sub_zero]
  have hI := S.integral (F := rlog F - C c) (by rw [map_sub, hc, constantCoeff_C, sub_self]) (hd'.symm ▸ hy2)
  have h00 : mem (constantCoeff F) (get A x 0) := by
    have := h 0 (by omega)
    rwa [coeff_zero_eq_constantCoeff_apply] at this
  simp only [slowAssert, if_pos hp, bok, hy1]
  split_ifs with ho
  · refine ⟨_, rfl, enc_congr hI (Agree.of_eq ?_)⟩
    rw [hcdef, S.isOne ho h00, Real.log_one]; simp
  · refine ⟨_, rfl, enc_congr (addArb_enc S hI (S.log hF h00)) (Agree.of_eq ?_)⟩
    ring

theorem log1pRefine_enc (S : ArbSound A mem) (skip : Bool) {n : ℤ} {x : List B} {F : ℝ⟦X⟧}
    (hF : 0 < constantCoeff (1 + F))
    (hp : skip = false → 0 < n → A.containsZero (get A x 0) = true ∧ A.isPositive (get A (A.addSi x 1) 0) = true)
    (h : Encloses mem A.zero n.toNat x F) :
    ∃ y, log1pRefine A skip x n = .ok y ∧ Encloses mem A.zero n.toNat y (rlog (1 + F)) := by
  unfold log1pRefine
  split_ifs with h0 hs
  · rw [show n.toNat = 0 by omega]
    exact ⟨_, rfl, enc_zero _ _⟩
  · exact ⟨_, rfl, S.log1pSeries hF h⟩
  have hp := hp (by simpa using hs) (by omega)
  simp only [slowAssert, if_pos hp.1, bok]
  exact logRefine_enc S skip hF (fun _ _ => hp.2) (enc_one S h)

/-! ### The in-place routines -/

theorem shiftLoop_eq (op : B → B → B) (rf rg : (ℕ → B) → ℕ → B) (s : ℕ) (f g : ℕ → B) (buf0 : ℕ → B) :
    ∀ (c : ℕ) (buf : ℕ → B), (∀ i < s + c, buf i = buf0 i) →
      (∀ buf' : ℕ → B, ∀ j ≤ s + c, (∀ i < j, buf' i = buf0 i) → ∀ i < j, rf buf' i = f i ∧ rg buf' i = g i) →
      ∀ i, shiftLoop op rf rg s c buf i = if s ≤ i ∧ i < s + c then op (f i) (g (i - s)) else buf i := by
  intro c
  induction c with
  | zero =>
    intro buf _ _ i
    rw [shiftLoop, if_neg (by omega)]
  | succ c ih =>
    intro buf hb hr i
    rw [shiftLoop]
    have h1 := (hr buf (s + (c + 1)) le_rfl hb (s + c) (by omega)).1
    have h2 := (hr buf (s + (c + 1)) le_rfl hb c (by omega)).2
    rw [h1, h2]
    rw [ih _ (fun i hi => by rw [Function.update_of_ne (by omega)]; exact hb i (by omega))
      (fun buf' j hj hb' => hr buf' j (by omega) hb')]
    by_cases hi : i = s + c
    · subst hi
      rw [if_neg (by omega), if_pos (by omega), Function.update_self, Nat.add_sub_cancel_left]
    · rw [Function.update_of_ne hi]
      by_cases h3 : s ≤ i ∧ i < s + c
      · rw [if_pos h3, if_pos (by omega)]
      · rw [if_neg h3, if_neg (by omega)]

theorem copyLoop_eq (rf : (ℕ → B) → ℕ → B) (f : ℕ → B) (h : ∀ buf i, rf buf i = f i) :
    ∀ (c : ℕ) (buf : ℕ → B) (i : ℕ), copyLoop rf c buf i = if i < c then f i else buf i := by
  intro c
  induction c with
  | zero => intro buf i; simp [copyLoop]
  | succ c ih =>
    intro buf i
    rw [copyLoop, ih, h]
    by_cases hi : i < c
    · rw [if_pos hi, if_pos (by omega)]
    · rw [if_neg hi]
      by_cases h2 : i = c
      · subst h2; rw [Function.update_self, if_pos (by omega)]
      · rw [Function.update_of_ne h2, if_neg (by omega)]

theorem zeroLoop_eq (z : B) (lo : ℕ) :
    ∀ (c : ℕ) (buf : ℕ → B) (i : ℕ), zeroLoop z lo c buf i = if lo ≤ i ∧ i < c then z else buf i := by
  intro c
  induction c with
  | zero => intro buf i; simp [zeroLoop]
  | succ c ih =>
    intro buf i
    rw [zeroLoop]
    split_ifs with h h2 h2
    · rw [ih]
      by_cases hi : lo ≤ i ∧ i < c
      · rw [if_pos hi]
      · rw [if_neg hi]
        have : i = c := by omega
        subst this; rw [Function.update_self]
    · rw [ih, if_neg (by omega), Function.update_of_ne (by omega)]
    · omega
    · rfl

/-- What the shifted sum computes, whatever is aliased. -/
theorem shiftOp_eq (op : B → B → B) (hf hg : Bool) {h f g : List B} (s n : ℕ) (ef : hf = true → h = f)
    (eg : hg = true → h = g) (hn : s < n) :
    shiftOp A op hf hg h f g s n = .ok ((List.range n).map fun i =>
      if s ≤ i then op (get A f i) (get A g (i - s)) else get A f i) := by
  unfold shiftOp
  rw [if_neg (by omega), if_neg (by omega)]
  simp only [pok]
  congr 1
  refine List.map_congr_left fun i hi => ?_
  rw [List.mem_range] at hi
  rw [show ((n : ℤ) - s).toNat = n - s by omega, Int.toNat_natCast]
  have hread : ∀ (al : Bool) (p : List B), (al = true → h = p) → ∀ (buf' : ℕ → B) (j : ℕ),
      (∀ i < j, buf' i = get A h i) → ∀ i < j,
      (if al = true then (if i < h.length then buf' i else A.zero) else get A p i) = get A p i := by
    intro al p e buf' j hb i hi
    cases al
    · rfl
    · rw [← e rfl]
      simp only [if_true]
      split_ifs with hl
      · exact hb i hi
      · rw [get, List.getD_eq_default _ _ (by omega)]
  have hloop := shiftLoop_eq op
    (fun buf i => if hf = true then (if i < h.length then buf i else A.zero) else get A f i)
    (fun buf i => if hg = true then (if i < h.length then buf i else A.zero) else get A g i) s (get A f) (get A g)
    (get A h) (n - s) (get A h) (fun _ _ => rfl)
    (fun buf' j _ hb i hi => ⟨hread hf f ef buf' j hb i hi, hread hg g eg buf' j hb i hi⟩)
  by_cases hfa : hf = true
  · have := ef hfa
    subst this
    rw [if_pos hfa, zeroLoop_eq, hloop]
    by_cases h1 : s ≤ i
    · rw [if_neg (by omega), if_pos (by omega), if_pos h1]
    · rw [if_neg h1]
      by_cases h2 : h.length ≤ i
      · rw [if_pos (by omega), get, List.getD_eq_default _ _ h2]
      · rw [if_neg (by omega), if_neg (by omega)]
  · rw [if_neg hfa, copyLoop_eq _ (get A f) (fun buf i => by rw [if_neg hfa]), hloop]
    by_cases h1 : s ≤ i
    · rw [if_neg (by omega), if_pos (by omega), if_pos h1]
    · rw [if_pos (by omega), if_neg h1]

theorem shiftOp_trunc (op : B → B → B) (hf hg : Bool) {h f g : List B} {s n : ℤ} (hn : n ≤ s) :
    shiftOp A op hf hg h f g s n = .ok (f.take n.toNat) := by
  unfold shiftOp safeTrunc trunc
  rw [if_pos hn, show (max 0 n).toNat = n.toNat by omega]; rfl

theorem shiftOp_ub (op : B → B → B) (hf hg : Bool) {h f g : List B} {s n : ℤ} (hs : s < 0) (hn : s < n) :
    shiftOp A op hf hg h f g s n = .error .ub := by
  unfold shiftOp
  rw [if_neg (by omega), if_pos hs]

/-- `h = f ± z^s g` encloses the exact sum. -/
theorem shiftOp_enc {op : B → B → B} {o : ℝ → ℝ → ℝ} (h0 : ∀ x, o x 0 = x)
    (ho : ∀ {x y b c}, mem x b → mem y c → mem (o x y) (op b c)) (hf hg : Bool) {h f g : List B} {s n : ℕ}
    (ef : hf = true → h = f) (eg : hg = true → h = g) {F G Y : ℝ⟦X⟧} (hF : Encloses mem A.zero n f F)
    (hG : Encloses mem A.zero (n - s) g G) (hY : ∀ i < n, coeff i Y = o (coeff i F) (coeff i (X ^ s * G))) :
    ∃ r, shiftOp A op hf hg h f g s n = .ok r ∧ Encloses mem A.zero n r Y ∧ r.length ≤ n := by
  by_cases hn : n ≤ s
  · refine ⟨_, shiftOp_trunc op hf hg (by omega), ?_, by rw [List.length_take]; omega⟩
    rw [Int.toNat_natCast]
    intro i hi
    rw [hY i hi, coeff_X_pow_mul', if_neg (by omega), h0]
    exact enc_trunc hF le_rfl i hi
  · refine ⟨_, shiftOp_eq op hf hg s n ef eg (by omega), ?_, by simp⟩
    intro i hi
    rw [getD_map_range, if_pos hi, hY i hi, coeff_X_pow_mul']
    split_ifs with hs
    · exact ho (hF i hi) (hG (i - s) (by omega))
    · rw [h0]; exact hF i hi

theorem addShift_enc (S : ArbSound A mem) (hf hg : Bool) {h f g : List B} {s n : ℕ}
    (ef : hf = true → h = f) (eg : hg = true → h = g) {F G : ℝ⟦X⟧} (hF : Encloses mem A.zero n f F)
    (hG : Encloses mem A.zero (n - s) g G) :
    ∃ r, addShift A hf hg h f g s n = .ok r ∧ Encloses mem A.zero n r (F + X ^ s * G) ∧ r.length ≤ n :=
  shiftOp_enc (o := fun x y => x + y) (fun x => add_zero x) S.add hf hg ef eg hF hG (fun _ _ => map_add ..)

theorem subShift_enc (S : ArbSound A mem) (hf hg : Bool) {h f g : List B} {s n : ℕ}
    (ef : hf = true → h = f) (eg : hg = true → h = g) {F G : ℝ⟦X⟧} (hF : Encloses mem A.zero n f F)
    (hG : Encloses mem A.zero (n - s) g G) :
    ∃ r, subShift A hf hg h f g s n = .ok r ∧ Encloses mem A.zero n r (F - X ^ s * G) ∧ r.length ≤ n :=
  shiftOp_enc (o := fun x y => x - y) (fun x => sub_zero x) S.sub hf hg ef eg hF hG (fun _ _ => map_sub ..)

/-! ### Shifted logarithm -/

theorem log1pShift_enc (S : ArbSound A mem) (skip : Bool) {n : ℤ} {s : ℕ} (hs : 0 < s) {x : List B} {F : ℝ⟦X⟧}
    (h : Encloses mem A.zero n.toNat x F) :
    ∃ y, log1pShift A skip x s n = .ok y ∧ Encloses mem A.zero n.toNat y (Ser.log1pS s F) := by
  unfold log1pShift
  split_ifs with h0
  · rw [show n.toNat = 0 by omega]
    exact ⟨_, rfl, enc_zero _ _⟩
  have ht : Encloses mem A.zero n.toNat (A.addSi (trunc (shiftLeft A x s) n.toNat) 1) (1 + X ^ s * F) :=
    enc_one S (enc_trunc (enc_mono (enc_shiftLeft S s h) (by omega)) le_rfl)
  have hy : Encloses mem A.zero n.toNat ((List.range n.toNat).map fun i => A.mulSi (get A x i) (s + i))
      (Ser.dshift s F) := by
    intro i hi
    rw [getD_map_range, if_pos hi]
    have := S.mulSi ((s : ℤ) + i) (h i hi)
    rw [Ser.dshift, coeff_mk]
    push_cast at this ⊢
    rwa [mul_comm] at this
  have hc := Ser.constantCoeff_1p (K := ℝ) hs F
  obtain ⟨r, hr1, hr2⟩ := divRefine_enc S skip (by rw [hc]; exact one_ne_zero) hy ht
  have hs1 : (s : ℤ) ≥ 1 := by omega
  refine ⟨r.mapIdx fun i yi => A.divSi yi (s + i), ?_, ?_⟩
  · simp only [slowAssert, if_pos hs1, bok, Int.toNat_natCast, hr1, pok]
  · intro i hi
    have h1 := hr2 i hi
    rw [← Ser.dshift_log1pS hs, Ser.dshift, coeff_mk] at h1
    by_cases hl : i < r.length
    · rw [List.getD_eq_getElem _ _ (by simpa using hl), List.getElem_mapIdx]
      rw [List.getD_eq_getElem _ _ hl] at h1
      have := S.divSi ((s : ℤ) + i) (by omega) h1
      push_cast at this
      rwa [mul_div_cancel_left₀ _ (by positivity)] at this
    · rw [List.getD_eq_default _ _ (by simpa using hl), S.zero]
      rw [List.getD_eq_default _ _ (by omega), S.zero, mul_eq_zero] at h1
      rcases h1 with h1 | h1
      · exact absurd h1 (by positivity)
      · exact h1

/-! ### The Newton iteration -/

theorem newtonSteps_append {α : Type} (step : ℕ → ℕ → α → Res α) (m : ℕ) :
    ∀ (l : List ℕ) (m0 : ℕ) (a : α), newtonSteps step m0 (l ++ [m]) a =
      newtonSteps step m0 l a >>= step (l.getLastD m0) m
  | [], m0, a => by
    show (step m0 m a >>= fun a => pure a) = _
    rw [newtonSteps, pok, bok]
    show _ = step m0 m a
    cases step m0 m a <;> rfl
  | m1 :: l, m0, a => by
    show (step m0 m1 a >>= fun a => newtonSteps step m1 (l ++ [m]) a) = (step m0 m1 a >>= fun a => newtonSteps step m1 l a) >>= _
    rw [bind_assoc]
    congr 1
    funext b
    rw [newtonSteps_append step m l m1 b, List.getLastD_cons]

theorem newtonSizes_last (n : ℕ) (hn : 1 ≤ n) : (newtonSizes n).reverse.getLastD 1 = n := by
  rw [newtonSizes]
  split_ifs with h
  · simp
  · simp; omega

theorem newtonIterate_rule {α : Type} (step : ℕ → ℕ → α → Res α) (P : ℕ → α → Prop) :
    ∀ (n : ℕ), 1 ≤ n → ∀ a, P 1 a →
      (∀ m0 m a, 0 < m0 → m0 ≤ m → m ≤ 2 * m0 → m ≤ n → P m0 a → ∃ a', step m0 m a = .ok a' ∧ P m a') →
      ∃ r, newtonIterate n step a = .ok r ∧ P n r := by
  intro n
  induction n using Nat.strong_induction_on with
  | _ n ih =>
    intro hn a ha hstep
    unfold newtonIterate
    rw [newtonSizes]
    by_cases h : n > 1
    · rw [if_pos h, List.reverse_cons, newtonSteps_append, newtonSizes_last _ (by omega)]
      obtain ⟨r, hr1, hr2⟩ := ih ((n + 1) / 2) (by omega) (by omega) a ha
        (fun m0 m a h1 h2 h3 h4 => hstep m0 m a h1 h2 h3 (by omega))
      unfold newtonIterate at hr1
      rw [hr1, bok]
      exact hstep _ _ _ (by omega) (by omega) (by omega) le_rfl hr2
    · rw [if_neg h]
      have : n = 1 := by omega
      subst this
      exact ⟨a, rfl, ha⟩

/-! ### Shifted exponential -/

/-- One Newton step for `z^-s (exp(a z^s F) - 1)` doubles the number of correct terms. -/
theorem expm1_newton {s : ℕ} (hs : 0 < s) {a : ℤ} {F G : ℝ⟦X⟧} {m0 m : ℕ} (hm2 : m ≤ 2 * m0)
    (hG : Agree m0 G (Ser.expm1S a s F)) :
    Agree m0 (Ser.log1pS s G - (a : ℝ⟦X⟧) * F) 0 ∧
      Agree m (G - (Ser.log1pS s G - (a : ℝ⟦X⟧) * F) * (1 + X ^ s * G)) (Ser.expm1S a s F) := by
  have hY1 := Ser.constantCoeff_1p (K := ℝ) hs G
  have haX := Ser.constantCoeff_aXs (K := ℝ) hs a F
  have hEc := constantCoeff_E haX
  have hYE : Agree (m0 + s) (1 + X ^ s * G) (E ((a : ℝ⟦X⟧) * (X ^ s * F))) := by
    rw [← Ser.X_pow_mul_expm1S hs]
    exact Agree.rfl'.add (Agree.X_pow_mul s hG)
  have hD : Agree (m0 + s) ((a : ℝ⟦X⟧) * (X ^ s * F) - L (1 + X ^ s * G)) 0 := by
    have h1 := (Agree.rfl' (F := (a : ℝ⟦X⟧) * (X ^ s * F))).sub (L_agree hY1 hEc hYE)
    rw [L_E haX, sub_self] at h1
    exact h1
  refine ⟨?_, Ser.agree_expm1S hs ?_⟩
  · refine Agree.of_X_pow_mul s ?_
    have := hD.neg
    rw [mul_sub, Ser.X_pow_mul_log1pS hs, mul_zero]
    rw [neg_sub, neg_zero] at this
    refine (Agree.of_eq ?_).trans this
    ring
  · have hE : E ((a : ℝ⟦X⟧) * (X ^ s * F)) = (1 + X ^ s * G) *
        E ((a : ℝ⟦X⟧) * (X ^ s * F) - L (1 + X ^ s * G)) := by
      have h1 := E_add (F := L (1 + X ^ s * G)) (G := (a : ℝ⟦X⟧) * (X ^ s * F) - L (1 + X ^ s * G))
        (constantCoeff_L hY1) (by rw [map_sub, haX, constantCoeff_L hY1, sub_zero])
      rw [E_L hY1, add_sub_cancel] at h1
      exact h1
    have h2 := ((Agree.rfl' (F := 1 + X ^ s * G)).mul (E_sub_one_agree (by omega) hD)).mono
      (show m + s ≤ 2 * (m0 + s) by omega)
    rw [hE]
    refine (Agree.of_eq ?_).trans h2.symm
    have := Ser.X_pow_mul_log1pS (K := ℝ) hs G
    linear_combination (-(1 + X ^ s * G)) * this

theorem safeMullow_enc (S : ArbSound A mem) {n : ℤ} {f g : List B} {F G : ℝ⟦X⟧} (hf : Encloses mem A.zero n.toNat f F)
    (hg : Encloses mem A.zero n.toNat g G) : Encloses mem A.zero n.toNat (safeMullow A f g n) (F * G) := by
  unfold safeMullow
  split_ifs with h
  · exact S.mullow hf hg
  · rw [show n.toNat = 0 by omega]; exact enc_zero _ _

/-- The correction of `poly_expm1_shift_refine`, for any series `G0` and `G1` in the two boxes. -/
theorem expm1Delta_enc (S : ArbSound A mem) (skip : Bool) {x y0 y : List B} {a : ℤ} (ha : a = 1 ∨ a = -1) {s : ℕ}
    (hs : 0 < s) {m0 m : ℕ} (hm : m0 ≤ m) {F G0 M : ℝ⟦X⟧} (hx : Encloses mem A.zero m x F)
    (h0 : Encloses mem A.zero m y0 G0)
    (hM : Encloses mem A.zero m (trunc (A.addSi (shiftLeft A y s) 1) m) M)
    (hlow : Agree m0 (Ser.log1pS s G0 - (a : ℝ⟦X⟧) * F) 0) :
    ∃ dy, expm1Delta A skip x a s y0 y m0 m = .ok dy ∧
      Encloses mem A.zero m dy ((Ser.log1pS s G0 - (a : ℝ⟦X⟧) * F) * M) := by
  obtain ⟨t, ht1, ht2⟩ := log1pShift_enc S skip (n := m) hs (by simpa using h0)
  rw [Int.toNat_natCast] at ht2
  set T := Ser.log1pS s G0 - (a : ℝ⟦X⟧) * F with hT
  set t' := if a > 0 then A.subSeries t x m else A.addSeries t x m with ht'
  have h2 : Encloses mem A.zero m t' T := by
    rw [ht']
    rcases ha with rfl | rfl
    · rw [if_pos (by norm_num)]
      refine enc_congr (S.subSeries ht2 hx) (Agree.of_eq ?_)
      rw [hT]; simp
    · rw [if_neg (by norm_num)]
      refine enc_congr (S.addSeries ht2 hx) (Agree.of_eq ?_)
      rw [hT]; simp
  have e3 := assertLowZero_ok S h2 hm hlow
  have hX := Ser.X_pow_mul_shiftDown hlow
  have hmm : m - m0 + m0 = m := by omega
  have h4 : Encloses mem A.zero (m - m0) (shiftRight t' m0) (Ser.shiftDown m0 T) :=
    enc_shiftRight m0 (by rw [hmm]; exact h2) (Agree.of_eq hX.symm)
  have h5 := safeMullow_enc S (n := (m : ℤ) - m0) (by rw [show ((m : ℤ) - m0).toNat = m - m0 by omega]; exact h4)
    (by rw [show ((m : ℤ) - m0).toNat = m - m0 by omega]; exact enc_mono hM (by omega))
  rw [show ((m : ℤ) - m0).toNat = m - m0 by omega] at h5
  have h6 := enc_shiftLeft S m0 h5
  rw [hmm] at h6
  refine ⟨_, ?_, enc_congr h6 (Agree.of_eq ?_)⟩
  · simp only [expm1Delta, ht1, bok, ← ht', e3, pok, Int.toNat_natCast]
  · rw [← mul_assoc, hX]

/-- The box for `1 + z^s y`. -/
theorem onePlus_enc (S : ArbSound A mem) {s m : ℕ} {y : List B} {G : ℝ⟦X⟧} (h : Encloses mem A.zero m y G) :
    Encloses mem A.zero m (trunc (A.addSi (shiftLeft A y s) 1) m) (1 + X ^ s * G) :=
  enc_trunc (enc_one S (enc_mono (enc_shiftLeft S s h) (by omega))) le_rfl

theorem expm1Newton_enc (S : ArbSound A mem) (skip : Bool) {x : List B} {a : ℤ} (ha : a = 1 ∨ a = -1) {s : ℕ}
    (hs : 0 < s) {n : ℕ} (hn : 0 < n) {F : ℝ⟦X⟧} (hx : Encloses mem A.zero n x F) :
    ∃ y, expm1Newton A skip x a s n = .ok y ∧ y.length ≤ n ∧ Encloses mem A.zero n y (Ser.expm1S a s F) := by
  have hbase : (if a < 0 then A.negP (trunc x 1) else trunc x 1).length ≤ 1 ∧
      Encloses mem A.zero 1 (if a < 0 then A.negP (trunc x 1) else trunc x 1) (Ser.expm1S a s F) := by
    have hag : Agree 1 ((a : ℝ⟦X⟧) * F) (Ser.expm1S a s F) := by
      refine Ser.agree_expm1S hs ?_
      refine (Agree.of_eq ?_).trans ((Ser.E_aXs_agree hs a F).symm.mono (by omega))
      ring
    have h1 : Encloses mem A.zero 1 (trunc x 1) F := enc_trunc (enc_mono hx hn) le_rfl
    rcases ha with rfl | rfl
    · rw [if_neg (by norm_num)]
      exact ⟨trunc_length _ _, enc_congr h1 (by simpa using hag)⟩
    · rw [if_pos (by norm_num)]
      exact ⟨(S.negP_length _).trans (trunc_length _ _), enc_congr (S.negP h1) (by simpa using hag)⟩
  unfold expm1Newton
  refine newtonIterate_rule _ (fun m y => y.length ≤ m ∧ Encloses mem A.zero m y (Ser.expm1S a s F)) n hn _ hbase ?_
  rintro m0 m y h0 hm hm2 hmn ⟨hl, hy⟩
  have hc := enc_cut S hy hl m
  obtain ⟨n1, n2⟩ := expm1_newton hs hm2 (agree_cut m0 (Ser.expm1S a s F))
  obtain ⟨dy, hd1, hd2⟩ := expm1Delta_enc S skip ha hs hm (enc_mono hx hmn) hc (onePlus_enc S hc) n1
  refine ⟨A.subSeries y dy m, ?_, S.subSeries_length _ _ _, enc_congr (S.subSeries hc hd2) n2⟩
  simp only [hd1, bok, pok]

/-- `poly_expm1_shift_refine`: unconditional when the refinement is skipped; otherwise the box used as the inverse
derivative in the last step must contain a suitable mean. -/
theorem expm1Shift_enc (S : ArbSound A mem) (skip : Bool) {x : List B} {a : ℤ} (ha : a = 1 ∨ a = -1) {s : ℕ}
    (hs : 0 < s) {n : ℤ} {F : ℝ⟦X⟧} (hx : Encloses mem A.zero n.toNat x F)
    (hmean : skip = false → ∀ y, expm1Newton A skip x a s n.toNat = .ok y → ∀ Y0, Encloses mem A.zero n.toNat y Y0 →
      Encloses mem A.zero n.toNat (polyMid A y) Y0 →
      ∃ M, Encloses mem A.zero n.toNat (trunc (A.addSi (shiftLeft A y s) 1) n.toNat) M ∧
        Agree n.toNat ((Ser.log1pS s Y0 - (a : ℝ⟦X⟧) * F) * M) (Y0 - Ser.expm1S a s F)) :
    ∃ y, expm1Shift A skip x a s n = .ok y ∧ Encloses mem A.zero n.toNat y (Ser.expm1S a s F) := by
  unfold expm1Shift
  by_cases h0 : n ≤ 0
  · rw [if_pos h0, show n.toNat = 0 by omega]
    exact ⟨_, rfl, enc_zero _ _⟩
  rw [if_neg h0]
  have ha1 : |a| = 1 := by rcases ha with rfl | rfl <;> norm_num
  have hs1 : (s : ℤ) ≥ 1 := by omega
  obtain ⟨y, hy1, hyl, hy2⟩ := expm1Newton_enc S skip ha hs (toNat_pos h0) hx
  simp only [slowAssert, if_pos ha1, if_pos hs1, bok, hy1]
  by_cases hk : skip = true
  · rw [if_pos hk]; exact ⟨y, rfl, hy2⟩
  rw [if_neg hk]
  obtain ⟨Y0, m1, m2, -⟩ := exists_mid S hy2
  obtain ⟨M, hM1, hM2⟩ := hmean (by simpa using hk) y hy1 Y0 m1 m2
  obtain ⟨dy, hd1, hd2⟩ := expm1Delta_enc S skip ha hs (Nat.zero_le _) hx m2 hM1 (Agree.zero _ _)
  obtain ⟨r, hr1, hr2, -⟩ := intersectSub_enc S hy2 (n' := n.toNat) rfl m2 hd2
    (by
      have := (Agree.rfl' (F := Y0)).sub hM2.symm
      rwa [sub_sub_cancel] at this)
  exact ⟨r, by rw [hd1, bok, hr1], hr2⟩

/-! ### Exponential -/

theorem expRefine_enc (S : ArbSound A mem) (skip : Bool) {x : List B} {n : ℤ} {F : ℝ⟦X⟧}
    (hx : Encloses mem A.zero n.toNat x F)
    (hmean : skip = false → 0 < n → A.isPositive (get A (polyMid A (A.expSeries x n.toNat)) 0) = true ∧
      ∀ Y0, Encloses mem A.zero n.toNat (A.expSeries x n.toNat) Y0 →
        Encloses mem A.zero n.toNat (polyMid A (A.expSeries x n.toNat)) Y0 →
        ∃ M, Encloses mem A.zero n.toNat (A.expSeries x n.toNat) M ∧
          Agree n.toNat (M * (rlog Y0 - F)) (Y0 - rexp F)) :
    ∃ y, expRefine A skip x n = .ok y ∧ Encloses mem A.zero n.toNat y (rexp F) := by
  unfold expRefine
  split_ifs with h0 hk
  · rw [show n.toNat = 0 by omega]
    exact ⟨_, rfl, enc_zero _ _⟩
  · exact ⟨_, rfl, S.expSeries hx⟩
  obtain ⟨hpos, hmean⟩ := hmean (by simpa using hk) (by omega)
  have hY := S.expSeries hx
  obtain ⟨Y0, m1, m2, -⟩ := exists_mid S hY
  have hY0 : 0 < constantCoeff Y0 := by
    have := m2 0 (toNat_pos h0)
    rw [coeff_zero_eq_constantCoeff_apply] at this
    exact S.isPositive hpos this
  obtain ⟨M, hM1, hM2⟩ := hmean Y0 m1 m2
  obtain ⟨l, hl1, hl2⟩ := logRefine_enc S skip hY0 (fun _ _ => hpos) m2
  have e1 := S.mullow hM1 (S.subSeries hl2 hx)
  obtain ⟨r, hr1, hr2, -⟩ := intersectSub_enc S hY (n' := n.toNat) rfl m2 e1
    (by
      have := (Agree.rfl' (F := Y0)).sub hM2.symm
      rwa [sub_sub_cancel] at this)
  exact ⟨r, by simp only [hl1, bok, hr1], hr2⟩

/-! ### log(1 + z^s e^x) -/

theorem log1pExp_key {s : ℕ} (hs : 0 < s) (F G : ℝ⟦X⟧) :
    X ^ s * (Ser.expm1S (-1) s G + rexp (F - X ^ s * G)) = E (L (1 + X ^ s * rexp F) - X ^ s * G) - 1 := by
  have hXG : constantCoeff (X ^ s * G) = 0 := by simp [hs.ne']
  have hW1 := Ser.constantCoeff_1p (K := ℝ) hs (rexp F)
  have h1 := Ser.X_pow_mul_expm1S (K := ℝ) hs (-1) G
  have h2 : rexp (F - X ^ s * G) = rexp F * E (-(X ^ s * G)) := by
    rw [sub_eq_add_neg, rexp_add, rexp_of_zero (F := -(X ^ s * G)) (by rw [map_neg, hXG, neg_zero])]
  have h3 : E (L (1 + X ^ s * rexp F) - X ^ s * G) = (1 + X ^ s * rexp F) * E (-(X ^ s * G)) := by
    rw [sub_eq_add_neg, E_add (constantCoeff_L hW1) (by rw [map_neg, hXG, neg_zero]), E_L hW1]
  have h4 : (((-1 : ℤ) : ℝ⟦X⟧) * (X ^ s * G)) = -(X ^ s * G) := by push_cast; ring
  rw [h4] at h1
  rw [h2, h3]
  linear_combination h1

theorem log1pExp_newton {s : ℕ} (hs : 0 < s) {F G : ℝ⟦X⟧} {m0 m : ℕ} (hm2 : m ≤ 2 * m0)
    (hG : Agree m0 G (Ser.log1pS s (rexp F))) :
    Agree m0 (-(Ser.expm1S (-1) s G + rexp (F - X ^ s * G))) 0 ∧
      Agree m (G - -(Ser.expm1S (-1) s G + rexp (F - X ^ s * G))) (Ser.log1pS s (rexp F)) := by
  have hXS := log1pExp_key hs F G
  set D := L (1 + X ^ s * rexp F) - X ^ s * G with hDdef
  have hD : Agree (m0 + s) D 0 := by
    have h1 := (Agree.rfl' (F := L (1 + X ^ s * rexp F))).sub (Agree.X_pow_mul s hG)
    rw [Ser.X_pow_mul_log1pS hs, sub_self] at h1
    exact h1
  have hED : Agree (2 * (m0 + s)) (E D - 1) D := by
    have := (E_sub_one_agree (by omega) hD).sub (Agree.rfl' (F := (1 : ℝ⟦X⟧)))
    rwa [add_sub_cancel_left] at this
  constructor
  · have h1 : Agree m0 (Ser.expm1S (-1) s G + rexp (F - X ^ s * G)) 0 := by
      refine Agree.of_X_pow_mul s ?_
      rw [hXS, mul_zero]
      exact (hED.mono (by omega)).trans hD
    have := h1.neg
    rwa [neg_zero] at this
  · rw [sub_neg_eq_add]
    refine Agree.of_X_pow_mul s ?_
    rw [mul_add, hXS, Ser.X_pow_mul_log1pS hs]
    have h1 := (Agree.rfl' (F := X ^ s * G)).add (hED.mono (show m + s ≤ 2 * (m0 + s) by omega))
    refine h1.trans (Agree.of_eq ?_)
    rw [hDdef]; ring

/-- What is needed of `poly_expm1_shift_refine` and `poly_exp_refine` when they are called from
`poly_log1p_exp_shift_refine`. -/
def ExpOk (A : Arb B) (mem : ℝ → B → Prop) (skip : Bool) : Prop :=
  ∀ (x : List B) (n : ℤ) (F : ℝ⟦X⟧), Encloses mem A.zero n.toNat x F →
    ∃ y, expRefine A skip x n = .ok y ∧ Encloses mem A.zero n.toNat y (rexp F)

def Expm1Ok (A : Arb B) (mem : ℝ → B → Prop) (skip : Bool) : Prop :=
  ∀ (x : List B) (s : ℕ) (n : ℤ) (F : ℝ⟦X⟧), 0 < s → Encloses mem A.zero n.toNat x F →
    ∃ y, expm1Shift A skip x (-1) s n = .ok y ∧ Encloses mem A.zero n.toNat y (Ser.expm1S (-1) s F)

theorem log1pExpDelta_enc (S : ArbSound A mem) {skip : Bool} (hE : ExpOk A mem skip) (hM : Expm1Ok A mem skip)
    {x y : List B} {s : ℕ} (hs : 0 < s) {m0 m : ℕ} (hm : m0 ≤ m) {F G : ℝ⟦X⟧} (hx : Encloses mem A.zero m x F)
    (hy : Encloses mem A.zero m y G)
    (hlow : Agree m0 (-(Ser.expm1S (-1) s G + rexp (F - X ^ s * G))) 0) :
    ∃ dy, log1pExpDelta A skip x s y m0 m = .ok dy ∧
      Encloses mem A.zero m dy (-(Ser.expm1S (-1) s G + rexp (F - X ^ s * G))) := by
  obtain ⟨d, hd1, hd2⟩ := hM y s m G hs (by simpa using hy)
  have ht := S.subSeries hx (enc_mono (enc_shiftLeft S s hy) (show m ≤ m + s by omega))
  obtain ⟨e, he1, he2⟩ := hE _ m _ (by simpa using ht)
  rw [Int.toNat_natCast] at hd2 he2
  have h3 := S.negP (S.addSeries hd2 he2)
  have h4 := assertLowZero_ok S h3 hm hlow
  exact ⟨_, by simp only [log1pExpDelta, hd1, bok, Int.toNat_natCast, he1, h4, pok], h3⟩

theorem log1pExpNewton_enc (S : ArbSound A mem) {skip : Bool} (hE : ExpOk A mem skip) (hM : Expm1Ok A mem skip)
    {x : List B} {s : ℕ} (hs : 0 < s) {n : ℕ} (hn : 0 < n) {F : ℝ⟦X⟧} (hx : Encloses mem A.zero n x F) :
    ∃ y, log1pExpNewton A skip x s n = .ok y ∧ y.length ≤ n ∧ Encloses mem A.zero n y (Ser.log1pS s (rexp F)) := by
  have hW := Ser.constantCoeff_1p (K := ℝ) hs (rexp F)
  have hbase : Encloses mem A.zero 1 [A.exp (get A x 0)] (Ser.log1pS s (rexp F)) := by
    have h1 : Agree 1 (rexp F) (Ser.log1pS s (rexp F)) := by
      refine Agree.of_X_pow_mul s ?_
      rw [Ser.X_pow_mul_log1pS hs]
      refine (Ser.L_1p_agree hs ?_).symm.mono (by omega)
      exact ((Agree.X_pow_mul s (Agree.zero (rexp F) 0)).mono (show s ≤ 0 + s by omega)).trans
        (Agree.of_eq (mul_zero _))
    refine enc_congr ?_ h1
    intro i hi
    have : i = 0 := by omega
    subst this
    rw [coeff_zero_eq_constantCoeff_apply, constantCoeff_rexp]
    have h0 := hx 0 hn
    rw [coeff_zero_eq_constantCoeff_apply] at h0
    exact S.exp h0
  unfold log1pExpNewton
  refine newtonIterate_rule _ (fun m y => y.length ≤ m ∧ Encloses mem A.zero m y (Ser.log1pS s (rexp F))) n hn _
    ⟨le_rfl, hbase⟩ ?_
  rintro m0 m y h0 hm hm2 hmn ⟨hl, hy⟩
  have hc := enc_cut S hy hl m
  obtain ⟨n1, n2⟩ := log1pExp_newton hs hm2 (agree_cut m0 (Ser.log1pS s (rexp F)))
  obtain ⟨dy, hd1, hd2⟩ := log1pExpDelta_enc S hE hM hs hm (enc_mono hx hmn) hc n1
  refine ⟨A.subSeries y dy m, ?_, S.subSeries_length _ _ _, enc_congr (S.subSeries hc hd2) n2⟩
  simp only [hd1, bok, pok]

theorem radShift_enc (S : ArbSound A mem) {y : List B} {s n : ℕ} {D : ℝ⟦X⟧}
    (h : ∀ i < n, mem (coeff i D) (A.radSym (y.getD i A.zero))) :
    Encloses mem A.zero n (radShift A y s n) (X ^ s * D) := by
  intro j hj
  rw [radShift, getD_map_range, if_pos hj, coeff_X_pow_mul']
  split_ifs with h1 h2 h2
  · omega
  · exact h _ (by omega)
  · exact (S.zero 0).2 rfl
  · omega

/-- `poly_log1p_exp_shift_refine`, given its two callees. -/
theorem log1pExpShift_enc (S : ArbSound A mem) {skip : Bool} (hE : ExpOk A mem skip) (hM : Expm1Ok A mem skip)
    {x : List B} {s : ℕ} (hs : 0 < s) {n : ℤ} {F : ℝ⟦X⟧} (hx : Encloses mem A.zero n.toNat x F)
    (hmean : skip = false → ∀ y e, log1pExpNewton A skip x s n.toNat = .ok y →
      expRefine A skip (radShift A y s n.toNat) n = .ok e → ∀ Y0, Encloses mem A.zero n.toNat y Y0 →
      Encloses mem A.zero n.toNat (polyMid A y) Y0 →
      ∃ M, Encloses mem A.zero n.toNat e M ∧
        Agree n.toNat (M * -(Ser.expm1S (-1) s Y0 + rexp (F - X ^ s * Y0))) (Y0 - Ser.log1pS s (rexp F))) :
    ∃ y, log1pExpShift A skip x s n = .ok y ∧ Encloses mem A.zero n.toNat y (Ser.log1pS s (rexp F)) := by
  unfold log1pExpShift
  by_cases h0 : n ≤ 0
  · rw [if_pos h0, show n.toNat = 0 by omega]
    exact ⟨_, rfl, enc_zero _ _⟩
  rw [if_neg h0]
  obtain ⟨y, hy1, hyl, hy2⟩ := log1pExpNewton_enc S hE hM hs (toNat_pos h0) hx
  simp only [hy1, bok]
  by_cases hk : skip = true
  · rw [if_pos hk]; exact ⟨y, rfl, hy2⟩
  rw [if_neg hk]
  obtain ⟨Y0, m1, m2, m3⟩ := exists_mid S hy2
  obtain ⟨dy, hd1, hd2⟩ := log1pExpDelta_enc S hE hM hs (Nat.zero_le _) hx m2 (Agree.zero _ _)
  obtain ⟨e, he1, -⟩ := hE (radShift A y s n.toNat) n _
    (radShift_enc S (D := Y0 - Y0) (fun i hi => (m3 Y0 m1 i hi).1))
  obtain ⟨M, hM1, hM2⟩ := hmean (by simpa using hk) y e hy1 he1 Y0 m1 m2
  have e1 := safeMullow_enc S hM1 hd2
  obtain ⟨r, hr1, hr2, -⟩ := intersectSub_enc S hy2 (n' := n.toNat) rfl m2 e1
    (by
      have := (Agree.rfl' (F := Y0)).sub hM2.symm
      rwa [sub_sub_cancel] at this)
  refine ⟨r, ?_, hr2⟩
  simp only [Int.toNat_natCast, hd1, he1, bok, hr1]

/-- Without the refinement steps everything is unconditional. -/
theorem expOk_skip (S : ArbSound A mem) : ExpOk A mem true := fun _ _ _ h =>
  expRefine_enc S true h (fun h => by cases h)

theorem expm1Ok_skip (S : ArbSound A mem) : Expm1Ok A mem true := fun _ _ _ _ hs h =>
  expm1Shift_enc S true (Or.inr rfl) hs h (fun h => by cases h)

end ArbPoly

end Mandelbrot
