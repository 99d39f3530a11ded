import Verif.Arb.AreaSound

/-!
# A concrete ball arithmetic of points and the whole line

A ball is a single real number or the whole line.  Operations on points are exact, any operation on something else gives the
whole line, with midpoint 1.  For this arithmetic the exponential routines of /repo/poly.cc enclose as they are, refinement
included.
-/

namespace Mandelbrot

open PowerSeries

namespace ArbPoly

open Spec PSD Classical

noncomputable section

/-! ### Mean values -/

theorem exp_mean (F L : ℝ⟦X⟧) : ∃ R : ℝ⟦X⟧, rexp L - rexp F = R * (L - F) ∧
    ∀ s, Agree s F 0 → Agree s L 0 → Agree s R 1 := by
  have hl := HasD.line F (L - F)
  have h1 := hl.rexp
  obtain ⟨R, h2, h3⟩ := HasD.mean (D := L - F) h1 h1
  refine ⟨R, ?_, fun s hF hL i hi => ?_⟩
  · rw [← h2]; simp
  · obtain ⟨a, -, b, -, h4, h5⟩ := h3 i
    have key : ∀ t : ℝ, coeff i (rexp (F + C t * (L - F))) = coeff i (1 : ℝ⟦X⟧) := by
      intro t
      have : Agree s (F + C t * (L - F)) 0 := by
        have := hF.add ((Agree.rfl' (n := s) (F := (C t : ℝ⟦X⟧))).mul (hL.sub hF))
        simpa using this
      rw [rexp_agree this i hi, rexp_zero]
    rw [key] at h4 h5
    exact le_antisymm h5 h4

/-! ### The arithmetic -/

/-- `none` is the whole line. -/
def pmem (x : ℝ) : Option ℝ → Prop
  | none => True
  | some y => x = y

/-- All coefficients are points. -/
def AllPt (P : List (Option ℝ)) : Prop := ∀ b ∈ P, b ≠ none

/-- The series of points. -/
def pval (P : List (Option ℝ)) : ℝ⟦X⟧ := PowerSeries.mk fun i => (P.getD i (some 0)).getD 0

/-- A list of `n` points, or of `n` whole lines. -/
def plist (n : ℕ) (c : Prop) (F : ℝ⟦X⟧) : List (Option ℝ) :=
  (List.range n).map fun i => if c then some (coeff i F) else none

/-- Points and the whole line. -/
def pointArb : Arb (Option ℝ) where
  zero := some 0
  one := some 1
  add b c := Option.map₂ (· + ·) b c
  sub b c := Option.map₂ (· - ·) b c
  neg b := b.map (- ·)
  mul b c := Option.map₂ (· * ·) b c
  sqr b := b.map (· ^ 2)
  mulSi b k := b.map (· * (k : ℝ))
  divSi b k := b.map (· / (k : ℝ))
  addmulSi b c k := Option.map₂ (fun x y => x + y * (k : ℝ)) b c
  mul2exp b k := b.map (· * 2 ^ k)
  log b := b.map Real.log
  exp b := b.map Real.exp
  pi := some Real.pi
  mid b := some (b.getD 1)
  inter b c := b.orElse fun _ => c
  radSym b := b.map fun _ => 0
  overlaps b c := decide (∃ x, pmem x b ∧ pmem x c)
  containsZero b := decide (pmem 0 b)
  isPositive b := decide (∀ x, pmem x b → 0 < x)
  isOne b := decide (∀ x, pmem x b → x = 1)
  addSi P k := (List.range (max 1 P.length)).map fun i => (P.getD i (some 0)).map (· + if i = 0 then (k : ℝ) else 0)
  negP P := P.map fun b => b.map (- ·)
  scalar2exp P k := P.map fun b => b.map ((2 : ℝ) ^ k * ·)
  derivative P := (List.range P.length).map fun i => (P.getD (i + 1) (some 0)).map (· * ((i : ℝ) + 1))
  integral P := (List.range (P.length + 1)).map fun i =>
    if i = 0 then some 0 else (P.getD (i - 1) (some 0)).map (· / (i : ℝ))
  addSeries P Q n := plist n (AllPt P ∧ AllPt Q) (pval P + pval Q)
  subSeries P Q n := plist n (AllPt P ∧ AllPt Q) (pval P - pval Q)
  mullow P Q n := plist n (AllPt P ∧ AllPt Q) (pval P * pval Q)
  invSeries P n := plist n (AllPt P) (pval P)⁻¹
  divSeries P Q n := plist n (AllPt P ∧ AllPt Q) (pval P * (pval Q)⁻¹)
  expSeries P n := plist n (AllPt P) (rexp (pval P))
  logSeries P n := plist n (AllPt P) (rlog (pval P))
  log1pSeries P n := plist n (AllPt P) (rlog (1 + pval P))

theorem pmem_intervals : Intervals pmem := by
  intro x y z b hx hz h1 h2
  rcases b with _ | b
  · trivial
  · have hx : x = b := hx
    have hz : z = b := hz
    exact le_antisymm (h2.trans_eq hz) (hx ▸ h1)

theorem pmem_map {f : ℝ → ℝ} {x : ℝ} {b : Option ℝ} (h : pmem x b) : pmem (f x) (b.map f) := by
  rcases b with _ | b
  · trivial
  · have h : x = b := h
    rw [h]; rfl

theorem pmem_map₂ {f : ℝ → ℝ → ℝ} {x y : ℝ} {b c : Option ℝ} (h : pmem x b) (h' : pmem y c) :
    pmem (f x y) (Option.map₂ f b c) := by
  rcases b with _ | b
  · trivial
  · rcases c with _ | c
    · trivial
    · have h : x = b := h
      have h' : y = c := h'
      rw [h, h']; rfl

theorem getD_ne {P : List (Option ℝ)} (h : AllPt P) (i : ℕ) : ∃ v, P.getD i (some 0) = some v := by
  by_cases hi : i < P.length
  · rw [List.getD_eq_getElem _ _ hi]
    exact Option.ne_none_iff_exists'.1 (h _ (List.getElem_mem hi))
  · exact ⟨0, List.getD_eq_default _ _ (by omega)⟩

theorem pval_agree {P : List (Option ℝ)} (h : AllPt P) {n : ℕ} {F : ℝ⟦X⟧} (hF : Encloses pmem (some 0) n P F) :
    Agree n F (pval P) := by
  intro i hi
  have := hF i hi
  obtain ⟨v, hv⟩ := getD_ne h i
  rw [pval, coeff_mk, hv]
  rw [hv] at this
  exact this

theorem enc_plist {n : ℕ} {c : Prop} {F G : ℝ⟦X⟧} (h : c → Agree n G F) : Encloses pmem (some 0) n (plist n c F) G := by
  intro i hi
  rw [plist, getD_map_range, if_pos hi]
  split_ifs with hc
  · exact h hc i hi
  · trivial

theorem pointArb_sound : ArbSound pointArb pmem where
  zero x := Iff.rfl
  one := rfl
  add h h' := pmem_map₂ h h'
  sub h h' := pmem_map₂ h h'
  neg h := pmem_map h
  mul h h' := pmem_map₂ h h'
  sqr h := pmem_map (f := fun x => x ^ 2) h
  mulSi k h := pmem_map (f := fun x => x * (k : ℝ)) h
  divSi k _ h := pmem_map (f := fun x => x / (k : ℝ)) h
  addmulSi k h h' := pmem_map₂ (f := fun x y => x + y * (k : ℝ)) h h'
  mul2exp k h := pmem_map (f := fun x => x * (2 : ℝ) ^ k) h
  log _ h := pmem_map h
  exp h := pmem_map h
  pi := rfl
  mid {x b} h := by
    rcases b with _ | b
    · exact ⟨1, trivial, rfl, fun y _ => ⟨trivial, trivial⟩⟩
    · refine ⟨b, rfl, rfl, fun y hy => ?_⟩
      have hy : y = b := hy
      rw [hy, sub_self]
      exact ⟨rfl, rfl⟩
  inter {x b c} h h' := by
    rcases b with _ | b
    · exact h'
    · exact h
  overlaps h h' := decide_eq_true ⟨_, h, h'⟩
  containsZero h := decide_eq_true h
  isPositive h h' := of_decide_eq_true h _ h'
  isOne h h' := of_decide_eq_true h _ h'
  addSi {n P F} k h i hi := by
    show pmem (coeff i (F + C (k : ℝ))) (((List.range (max 1 P.length)).map _).getD i (some 0))
    rw [getD_map_range, map_add, coeff_C]
    by_cases h1 : i < max 1 P.length
    · rw [if_pos h1]
      exact pmem_map (f := fun x => x + if i = 0 then (k : ℝ) else 0) (h i hi)
    · rw [if_neg h1, if_neg (by omega)]
      have := h i hi
      rw [List.getD_eq_default _ _ (by omega)] at this
      rw [add_zero]; exact this
  negP {n P F} h i hi := by
    show pmem (coeff i (-F)) ((P.map _).getD i (some 0))
    have := h i hi
    by_cases hl : i < P.length
    · rw [List.getD_eq_getElem _ _ (by simpa using hl), List.getElem_map, map_neg]
      rw [List.getD_eq_getElem _ _ hl] at this
      exact pmem_map this
    · rw [List.getD_eq_default _ _ (by simpa using hl), map_neg]
      rw [List.getD_eq_default _ _ (by omega)] at this
      have e : coeff i F = 0 := this
      rw [e, neg_zero]; rfl
  negP_length P := by show (P.map _).length ≤ _; rw [List.length_map]
  scalar2exp {n P F} k h i hi := by
    show pmem (coeff i (C ((2 : ℝ) ^ k) * F)) ((P.map _).getD i (some 0))
    have := h i hi
    by_cases hl : i < P.length
    · rw [List.getD_eq_getElem _ _ (by simpa using hl), List.getElem_map, coeff_C_mul]
      rw [List.getD_eq_getElem _ _ hl] at this
      exact pmem_map (f := fun x => (2 : ℝ) ^ k * x) this
    · rw [List.getD_eq_default _ _ (by simpa using hl), coeff_C_mul]
      rw [List.getD_eq_default _ _ (by omega)] at this
      have e : coeff i F = 0 := this
      rw [e, mul_zero]; rfl
  derivative {n P F} h i hi := by
    show pmem (coeff i (d⁄dX ℝ F)) (((List.range P.length).map _).getD i (some 0))
    have := h (i + 1) (by omega)
    rw [getD_map_range, coeff_derivative]
    split_ifs with hl
    · exact pmem_map (f := fun x => x * ((i : ℝ) + 1)) this
    · rw [List.getD_eq_default _ _ (by omega)] at this
      have e : coeff (i + 1) F = 0 := this
      rw [e, zero_mul]; rfl
  integral {n P F} h0 h i hi := by
    show pmem (coeff i F) (((List.range (P.length + 1)).map _).getD i (some 0))
    rw [getD_map_range]
    rcases i with _ | i
    · rw [if_pos (by omega), if_pos rfl, coeff_zero_eq_constantCoeff_apply, h0]; rfl
    · have := h i (by omega)
      rw [coeff_derivative] at this
      have hp : ((i : ℝ) + 1) ≠ 0 := by positivity
      by_cases hl : i + 1 < P.length + 1
      · rw [if_pos hl, if_neg (Nat.succ_ne_zero i)]
        have h2 := pmem_map (f := fun x => x / ((i + 1 : ℕ) : ℝ)) this
        have e : coeff (i + 1) F * ((i : ℝ) + 1) / ((i + 1 : ℕ) : ℝ) = coeff (i + 1) F := by
          push_cast
          rw [mul_div_cancel_right₀ _ hp]
        simp only [e] at h2
        exact h2
      · rw [if_neg hl]
        rw [List.getD_eq_default _ _ (by omega)] at this
        have e : coeff (i + 1) F * ((i : ℝ) + 1) = 0 := this
        rcases mul_eq_zero.1 e with e | e
        · rw [e]; rfl
        · exact absurd e hp
  addSeries h h' := enc_plist fun c => (pval_agree c.1 h).add (pval_agree c.2 h')
  subSeries h h' := enc_plist fun c => (pval_agree c.1 h).sub (pval_agree c.2 h')
  subSeries_length P Q n := by show ((List.range n).map _).length ≤ _; simp
  mullow h h' := enc_plist fun c => (pval_agree c.1 h).mul (pval_agree c.2 h')
  invSeries {n P F} hc h := by
    rcases Nat.eq_zero_or_pos n with rfl | hn
    · exact enc_zero _ _
    · refine enc_plist fun c => ?_
      have := pval_agree c h
      exact this.inv hc (by rw [← this.constantCoeff_eq hn]; exact hc)
  invSeries_mid {n P F} hn hc h := by
    have e : (pointArb.invSeries P n).getD 0 pointArb.zero = if AllPt P then some (coeff 0 (pval P)⁻¹) else none := by
      show (plist n _ _).getD 0 (some 0) = _
      rw [plist, getD_map_range, if_pos hn]
    rw [e]
    split_ifs with c
    · refine ⟨coeff 0 (pval P)⁻¹, ?_, rfl, rfl⟩
      rw [coeff_zero_eq_constantCoeff_apply, constantCoeff_inv, ← (pval_agree c h).constantCoeff_eq hn]
      exact inv_ne_zero hc
    · exact ⟨1, one_ne_zero, trivial, rfl⟩
  divSeries {n P Q F G} hc h h' := by
    rcases Nat.eq_zero_or_pos n with rfl | hn
    · exact enc_zero _ _
    · refine enc_plist fun c => ?_
      have := pval_agree c.2 h'
      exact (pval_agree c.1 h).mul (this.inv hc (by rw [← this.constantCoeff_eq hn]; exact hc))
  expSeries h := enc_plist fun c => rexp_agree (pval_agree c h)
  expSeries_length P n := by show ((List.range n).map _).length ≤ n; simp
  logSeries hc h := enc_plist fun c => rlog_agree hc.ne' (pval_agree c h)
  log1pSeries hc h := enc_plist fun c => rlog_agree hc.ne' (Agree.rfl'.add (pval_agree c h))

/-! ### The exponential routines -/

/-- All points, or `n` whole lines. -/
def Dich (n : ℕ) (P : List (Option ℝ)) : Prop := AllPt P ∨ P = List.replicate n none

theorem dich_plist (n : ℕ) (c : Prop) (F : ℝ⟦X⟧) : Dich n (plist n c F) := by
  unfold plist
  by_cases hc : c
  · left
    intro b hb
    simp only [if_pos hc, List.mem_map] at hb
    obtain ⟨i, -, rfl⟩ := hb
    simp
  · right
    simp only [if_neg hc]
    rw [List.map_const', List.length_range]

theorem get_rep {n i : ℕ} (h : i < n) : (List.replicate n (none : Option ℝ)).getD i (some 0) = none := by
  rw [List.getD_eq_getElem _ _ (by simpa using h), List.getElem_replicate]

theorem enc_rep {n : ℕ} (F : ℝ⟦X⟧) : Encloses pmem (some 0) n (List.replicate n none) F := fun i hi => by
  rw [get_rep hi]; trivial

theorem AllPt.unique {P : List (Option ℝ)} (h : AllPt P) {n : ℕ} {F G : ℝ⟦X⟧} (hF : Encloses pmem (some 0) n P F)
    (hG : Encloses pmem (some 0) n P G) : Agree n F G := (pval_agree h hF).trans (pval_agree h hG).symm

/-- `poly_exp_refine` as it is encloses in this arithmetic. -/
theorem point_exp : ExpOk pointArb pmem false := by
  intro x n F hx
  refine expRefine_enc pointArb_sound false hx fun _ hn => ?_
  have hn' : 0 < n.toNat := by omega
  have hy := pointArb_sound.expSeries hx
  rcases dich_plist n.toNat (AllPt x) (rexp (pval x)) with hd | hd
  · have hd' : AllPt (pointArb.expSeries x n.toNat) := hd
    obtain ⟨Y, m1, m2, -⟩ := exists_mid pointArb_sound hy
    have hpos : pointArb.isPositive (get pointArb (polyMid pointArb (pointArb.expSeries x n.toNat)) 0) = true := by
      have e : get pointArb (polyMid pointArb (pointArb.expSeries x n.toNat)) 0 =
          (polyMid pointArb (pointArb.expSeries x n.toNat)).getD 0 pointArb.zero := rfl
      have h0 := m2 0 hn'
      have hY := hd'.unique m1 hy
      obtain ⟨v, hv⟩ := getD_ne (P := polyMid pointArb (pointArb.expSeries x n.toNat)) (by
        intro b hb
        simp only [polyMid, List.mem_map] at hb
        obtain ⟨c, -, rfl⟩ := hb
        exact Option.some_ne_none _) 0
      rw [e]
      have hv' : (polyMid pointArb (pointArb.expSeries x n.toNat)).getD 0 pointArb.zero = some v := hv
      rw [hv'] at h0 ⊢
      have h0 : coeff 0 Y = v := h0
      refine decide_eq_true fun z hz => ?_
      have hz : z = v := hz
      rw [hz, ← h0, hY 0 hn', coeff_zero_eq_constantCoeff_apply]
      exact rexp_pos F
    refine ⟨hpos, fun Y0 h1 h2 => ⟨rexp F, hy, ?_⟩⟩
    have hY := hd'.unique h1 hy
    have hc : 0 < constantCoeff Y0 := by
      rw [hY.constantCoeff_eq hn']; exact rexp_pos F
    have h3 := (rlog_agree hc.ne' hY).sub (Agree.rfl' (F := F))
    rw [rlog_rexp, sub_self] at h3
    have h4 := hY.sub (Agree.rfl' (F := rexp F))
    rw [sub_self] at h4
    have h5 := (Agree.rfl' (n := n.toNat) (F := rexp F)).mul h3
    rw [mul_zero] at h5
    exact h5.trans h4.symm
  · have e : pointArb.expSeries x n.toNat = List.replicate n.toNat none := hd
    rw [e]
    have hg : get pointArb (polyMid pointArb (List.replicate n.toNat none)) 0 = some 1 := by
      have := polyMid_getD (A := pointArb) (List.replicate n.toNat none) 0
      rw [if_pos (by simpa using hn')] at this
      have e2 : (List.replicate n.toNat (none : Option ℝ)).getD 0 pointArb.zero = none := get_rep hn'
      rw [e2] at this
      exact this
    refine ⟨?_, fun Y0 _ h2 => ?_⟩
    · rw [hg]
      refine decide_eq_true fun z hz => ?_
      have hz : z = 1 := hz
      rw [hz]; norm_num
    · have hc : 0 < constantCoeff Y0 := by
        have := h2 0 hn'
        have e2 : (polyMid pointArb (List.replicate n.toNat none)).getD 0 pointArb.zero = some 1 := hg
        rw [e2] at this
        have this : coeff 0 Y0 = 1 := this
        rw [coeff_zero_eq_constantCoeff_apply] at this
        rw [this]; norm_num
      obtain ⟨R, hR, -⟩ := exp_mean F (rlog Y0)
      rw [rexp_rlog hc] at hR
      exact ⟨R, enc_rep R, Agree.of_eq hR.symm⟩

/-- The last step of a Newton iteration decides the shape of the result. -/
theorem newtonSteps_last {α : Type} (step : ℕ → ℕ → α → Res α) (m : ℕ) : ∀ (l : List ℕ) (m0 : ℕ) (a r : α),
    newtonSteps step m0 (l ++ [m]) a = .ok r → ∃ m1 a1, step m1 m a1 = .ok r
  | [], m0, a, r, h => by
    simp only [List.nil_append, newtonSteps] at h
    cases e : step m0 m a with
    | error e' => rw [e] at h; cases h
    | ok b => rw [e, bok] at h; cases h; exact ⟨m0, a, e⟩
  | k :: l, m0, a, r, h => by
    simp only [List.cons_append, newtonSteps] at h
    cases e : step m0 k a with
    | error e' => rw [e] at h; cases h
    | ok b => rw [e, bok] at h; exact newtonSteps_last step m l k b r h

theorem newtonIterate_last {α : Type} {n : ℕ} {step : ℕ → ℕ → α → Res α} {a r : α}
    (h : newtonIterate n step a = .ok r) : (n ≤ 1 ∧ r = a) ∨ ∃ m1 a1, step m1 n a1 = .ok r := by
  unfold newtonIterate at h
  rw [newtonSizes] at h
  split_ifs at h with hn
  · rw [List.reverse_cons] at h
    exact Or.inr (newtonSteps_last step n _ _ _ _ h)
  · cases h
    exact Or.inl ⟨by omega, rfl⟩

theorem dich_one (l : List (Option ℝ)) (h : l.length ≤ 1) : Dich 1 l := by
  rcases l with _ | ⟨b, l⟩
  · left; intro b hb; simp at hb
  · have : l = [] := by
      rcases l with _ | ⟨c, l⟩
      · rfl
      · simp at h
    subst this
    rcases b with _ | b
    · right; rfl
    · left; intro c hc; simp at hc; rw [hc]; simp

theorem dich_expm1 {x y : List (Option ℝ)} {a s : ℤ} {n : ℕ} (hn : 0 < n)
    (h : expm1Newton pointArb false x a s n = .ok y) : Dich n y := by
  unfold expm1Newton at h
  rcases newtonIterate_last h with ⟨h1, rfl⟩ | ⟨m1, a1, h1⟩
  · obtain rfl : n = 1 := by omega
    refine dich_one _ ?_
    split_ifs
    · exact (pointArb_sound.negP_length _).trans (trunc_length _ _)
    · exact trunc_length _ _
  · cases e : expm1Delta pointArb false x a s a1 a1 m1 n with
    | error e' => rw [e] at h1; cases h1
    | ok dy =>
      rw [e, bok] at h1
      cases h1
      exact dich_plist _ _ _

theorem dich_log1pExp {x y : List (Option ℝ)} {s : ℤ} {n : ℕ} (hn : 0 < n)
    (h : log1pExpNewton pointArb false x s n = .ok y) : Dich n y := by
  unfold log1pExpNewton at h
  rcases newtonIterate_last h with ⟨h1, rfl⟩ | ⟨m1, a1, h1⟩
  · obtain rfl : n = 1 := by omega
    exact dich_one _ le_rfl
  · cases e : log1pExpDelta pointArb false x s a1 m1 n with
    | error e' => rw [e] at h1; cases h1
    | ok dy =>
      rw [e, bok] at h1
      cases h1
      exact dich_plist _ _ _

theorem low_zero {s : ℕ} (G : ℝ⟦X⟧) : Agree s (X ^ s * G) 0 := by
  have := Agree.X_pow_mul s (Agree.zero G 0)
  rw [mul_zero, zero_add] at this
  exact this

/-- `poly_expm1_shift_refine` as it is encloses in this arithmetic. -/
theorem point_expm1 : Expm1Ok pointArb pmem false := by
  intro x s n F hs hx
  refine expm1Shift_enc pointArb_sound false (Or.inr rfl) hs hx fun _ y hy Y0 h1 h2 => ?_
  rcases Nat.eq_zero_or_pos n.toNat with hn | hn
  · rw [hn]
    exact ⟨0, enc_zero _ _, Agree.zero _ _⟩
  obtain ⟨y', hy', -, hyE⟩ := expm1Newton_enc pointArb_sound false (Or.inr rfl) hs hn hx
  rw [hy'] at hy
  cases hy
  rcases dich_expm1 hn hy' with hd | hd
  · have hY := hd.unique h1 hyE
    have hM := enc_mono (enc_shiftLeft pointArb_sound s h1) (show n.toNat ≤ n.toNat + s by omega)
    refine ⟨_, enc_trunc (enc_one pointArb_sound hM) le_rfl, ?_⟩
    have h3 : Agree n.toNat (Ser.log1pS s Y0 - ((-1 : ℤ) : ℝ⟦X⟧) * F) 0 := by
      refine Agree.of_X_pow_mul s ?_
      rw [mul_zero, mul_sub, X_log1pS hs]
      have h4 : Agree (n.toNat + s) (1 + X ^ s * Y0) (rexp (((-1 : ℤ) : ℝ⟦X⟧) * (X ^ s * F))) := by
        rw [rexp_of_zero (Ser.constantCoeff_aXs hs _ F), ← Ser.X_pow_mul_expm1S hs]
        exact Agree.rfl'.add (Agree.X_pow_mul s hY)
      have h5 := (rlog_agree (by rw [cc_1p hs]; norm_num) h4).sub
        (Agree.rfl' (F := ((-1 : ℤ) : ℝ⟦X⟧) * (X ^ s * F)))
      rw [rlog_rexp, sub_self] at h5
      rw [show X ^ s * (((-1 : ℤ) : ℝ⟦X⟧) * F) = ((-1 : ℤ) : ℝ⟦X⟧) * (X ^ s * F) by ring]
      exact h5
    have h4 := hY.sub (Agree.rfl' (F := Ser.expm1S (-1) s F))
    rw [sub_self] at h4
    exact (h3.mul_zero_left _).trans h4.symm
  -- the mean
  set L := rlog (1 + X ^ s * Y0) with hL
  set F' := ((-1 : ℤ) : ℝ⟦X⟧) * (X ^ s * F) with hF'
  obtain ⟨R, hR, hR1⟩ := exp_mean F' L
  have hcc := cc_1p hs Y0
  have hLX : X ^ s * Ser.log1pS s Y0 = L := X_log1pS hs Y0
  have hc0 : constantCoeff F' = 0 := Ser.constantCoeff_aXs hs _ F
  have hEX : 1 + X ^ s * Ser.expm1S (-1) s F = rexp F' := by rw [Ser.X_pow_mul_expm1S hs, rexp_of_zero hc0]
  rw [hL, rexp_rlog (by rw [hcc]; norm_num), ← hEX] at hR
  have hmul : (Ser.log1pS s Y0 - ((-1 : ℤ) : ℝ⟦X⟧) * F) * R = Y0 - Ser.expm1S (-1) s F := by
    have hX : (X ^ s : ℝ⟦X⟧) ≠ 0 := pow_ne_zero _ X_ne_zero
    refine mul_left_cancel₀ hX ?_
    rw [← hL, ← hLX, hF'] at hR
    linear_combination -hR
  refine ⟨R, ?_, Agree.of_eq hmul⟩
  have hlow : Agree s R 1 := by
    refine hR1 s ?_ ?_
    · rw [hF', show ((-1 : ℤ) : ℝ⟦X⟧) * (X ^ s * F) = X ^ s * (((-1 : ℤ) : ℝ⟦X⟧) * F) by ring]
      exact low_zero _
    · rw [← hLX]; exact low_zero _
  rw [hd]
  refine enc_trunc ?_ le_rfl
  have h6 : Encloses pmem (some 0) n.toNat (shiftLeft pointArb (List.replicate n.toNat none) s) (R - 1) := by
    obtain ⟨Q, hQ⟩ : ∃ Q, R - 1 = X ^ s * Q := by
      have h7 := hlow.sub (Agree.rfl' (F := (1 : ℝ⟦X⟧)))
      rw [sub_self] at h7
      exact ⟨_, (Ser.X_pow_mul_shiftDown h7).symm⟩
    rw [hQ]
    exact enc_mono (enc_shiftLeft pointArb_sound s (enc_rep Q)) (by omega)
  have h8 := enc_one pointArb_sound h6
  rw [add_sub_cancel] at h8
  exact h8

/-- The exponential of a polynomial that is not all points says nothing. -/
theorem exp_rep {z e : List (Option ℝ)} {n : ℤ} (hz : ¬ AllPt z) (h : expRefine pointArb false z n = .ok e) (F : ℝ⟦X⟧) :
    Encloses pmem (some 0) n.toNat e F := by
  unfold expRefine at h
  simp only [Bool.false_eq_true, if_false] at h
  split_ifs at h with h0
  · rw [show n.toNat = 0 by omega]; exact fun i hi => absurd hi (Nat.not_lt_zero i)
  have ey : pointArb.expSeries z n.toNat = (List.range n.toNat).map fun _ => none := by
    show plist _ _ _ = _
    unfold plist
    simp only [if_neg hz]
  rw [ey] at h
  cases el : logRefine pointArb false (polyMid pointArb ((List.range n.toNat).map fun _ => none)) n with
  | error e' => rw [el] at h; cases h
  | ok dy =>
    rw [el, bok] at h
    have hny : ∀ k, 0 < k → ¬ AllPt ((List.range k).map fun _ => (none : Option ℝ)) := by
      intro k hk hp
      exact hp none (by simp; omega) rfl
    have em : ∀ Q, pointArb.mullow ((List.range n.toNat).map fun _ => none) Q n.toNat =
        (List.range n.toNat).map fun _ => none := by
      intro Q
      show plist _ _ _ = _
      unfold plist
      simp only [if_neg (fun hc : AllPt ((List.range n.toNat).map fun _ => (none : Option ℝ)) ∧ AllPt Q =>
        hny _ (by omega) hc.1)]
    rw [em] at h
    rw [intersectSub_eq h]
    intro i hi
    rw [getD_map_range, if_pos (by simp only [List.length_map, List.length_range]; omega)]
    have eg : get pointArb ((List.range n.toNat).map fun _ => none) i = none := by
      show (((List.range n.toNat).map fun _ => none) : List (Option ℝ)).getD i (some 0) = none
      rw [getD_map_range, if_pos hi]
    rw [eg]
    have e2 : pointArb.inter none (pointArb.sub (get pointArb
        (polyMid pointArb ((List.range n.toNat).map fun _ => none)) i) none) = none := by
      show (Option.map₂ _ _ none) = none
      rw [Option.map₂_none_right]
    rw [e2]
    trivial

/-- `poly_log1p_exp_shift_refine` as it is encloses in this arithmetic. -/
theorem point_log1pExp : Log1pExpOk pointArb pmem false := by
  intro x s n F hs hx
  refine log1pExpShift_enc pointArb_sound point_exp point_expm1 hs hx fun _ y e hy he Y0 h1 h2 => ?_
  rcases Nat.eq_zero_or_pos n.toNat with hn | hn
  · rw [hn]
    exact ⟨0, enc_zero _ _, Agree.zero _ _⟩
  obtain ⟨y', hy', -, hyE⟩ := log1pExpNewton_enc pointArb_sound point_exp point_expm1 hs hn hx
  rw [hy'] at hy
  cases hy
  set Y := Ser.log1pS s (rexp F) with hY
  have hX : (X ^ s : ℝ⟦X⟧) ≠ 0 := pow_ne_zero _ X_ne_zero
  obtain ⟨R, hR, hR1⟩ := exp_mean 0 (X ^ s * (Y - Y0))
  have hR1 := hR1 s (Agree.refl _ _) (low_zero _)
  rw [rexp_zero, sub_zero] at hR
  have hid : -(Ser.expm1S (-1) s Y0 + rexp (F - X ^ s * Y0)) = R * (Y0 - Y) := by
    refine mul_left_cancel₀ hX ?_
    have e1 : 1 + X ^ s * Ser.expm1S (-1) s Y0 = rexp (-(X ^ s * Y0)) := by
      rw [Ser.X_pow_mul_expm1S hs, rexp_of_zero]
      · congr 1; push_cast; ring
      · rw [map_neg, map_mul, map_pow, constantCoeff_X, zero_pow hs.ne', zero_mul, neg_zero]
    have e2 : rexp (X ^ s * Y) = 1 + X ^ s * rexp F := by
      rw [hY, X_log1pS hs, rexp_rlog (by rw [cc_1p hs]; norm_num)]
    have e3 : rexp (X ^ s * (Y - Y0)) = rexp (X ^ s * Y) * rexp (-(X ^ s * Y0)) := by
      rw [← rexp_add]; congr 1; ring
    have e4 : rexp (F - X ^ s * Y0) = rexp F * rexp (-(X ^ s * Y0)) := by
      rw [← rexp_add, sub_eq_add_neg]
    rw [e3, e2] at hR
    rw [e4]
    linear_combination -e1 - hR
  rw [hid]
  have hcR : constantCoeff R = 1 := by rw [hR1.constantCoeff_eq hs, map_one]
  have hRR := PowerSeries.mul_inv_cancel R (by rw [hcR]; exact one_ne_zero)
  have hone : Encloses pmem (some 0) n.toNat e 1 := by
    obtain ⟨e', he', h3⟩ := point_exp _ n _ (radShift_enc pointArb_sound (y := y) (s := s) (n := n.toNat) (D := 0)
      (fun i hi => by
        rw [map_zero]
        show pmem 0 (Option.map _ _)
        cases (y.getD i pointArb.zero) <;> trivial))
    rw [he] at he'
    cases he'
    rwa [mul_zero, rexp_zero] at h3
  have hmul : R⁻¹ * (R * (Y0 - Y)) = Y0 - Y := by linear_combination (Y0 - Y) * hRR
  rcases dich_log1pExp hn hy' with hd | hd
  · refine ⟨1, hone, ?_⟩
    have h4 := (hd.unique h1 hyE).sub (Agree.rfl' (F := Y))
    rw [sub_self] at h4
    have h5 := (Agree.rfl' (n := n.toNat) (F := 1 * R)).mul h4
    rw [mul_zero, mul_assoc] at h5
    exact h5.trans h4.symm
  · refine ⟨R⁻¹, ?_, Agree.of_eq hmul⟩
    by_cases hns : n.toNat ≤ s
    · refine enc_congr hone ?_
      have h6 := (hR1.symm.mono hns).inv (by rw [map_one]; exact one_ne_zero) (by rw [hcR]; exact one_ne_zero)
      have e1 : ((1 : ℝ⟦X⟧))⁻¹ = 1 := by
        have := PowerSeries.mul_inv_cancel (1 : ℝ⟦X⟧) (by rw [map_one]; exact one_ne_zero)
        rwa [one_mul] at this
      rwa [e1] at h6
    · refine exp_rep ?_ he _
      intro hp
      refine hp none ?_ rfl
      rw [hd, radShift]
      refine List.mem_map.2 ⟨s, by simp; omega, ?_⟩
      rw [if_neg (by omega), Nat.sub_self]
      have e2 : get pointArb (List.replicate n.toNat none) 0 = none := get_rep hn
      rw [e2]
      rfl

end

end ArbPoly

end Mandelbrot
