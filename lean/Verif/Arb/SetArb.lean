import Verif.Arb.Sound

/-!
# A concrete ball arithmetic: sets of real numbers with exact images

It shows that the contract `Spec.ArbSound` can be met.
The polynomial exponential may be widened by a given set `W i` in coefficient `i`.
-/

namespace Mandelbrot

open PowerSeries

namespace ArbPoly

open Spec Classical

noncomputable section

/-- The `i`-th coefficients of a set of series, for `i < n`. -/
def img (n : ℕ) (T : Set ℝ⟦X⟧) : List (Set ℝ) := (List.range n).map fun i => {c | ∃ F ∈ T, c = coeff i F}

/-- The series in a box. -/
def box (n : ℕ) (P : List (Set ℝ)) : Set ℝ⟦X⟧ := {F | Encloses (fun x (b : Set ℝ) => x ∈ b) {0} n P F}

/-- The midpoint of the hull if it belongs to the set, else some element. -/
def midf (b : Set ℝ) : ℝ :=
  if (sInf b + sSup b) / 2 ∈ b then (sInf b + sSup b) / 2 else if h : b.Nonempty then h.some else 0

theorem midf_mem {b : Set ℝ} {x : ℝ} (h : x ∈ b) : midf b ∈ b := by
  unfold midf
  split_ifs with h1 h2
  · exact h1
  · exact h2.some_mem
  · exact absurd ⟨x, h⟩ h2

/-- Sets of reals as balls. -/
def setArb (W : ℕ → Set ℝ) : Arb (Set ℝ) where
  zero := {0}
  one := {1}
  add b c := {z | ∃ x ∈ b, ∃ y ∈ c, z = x + y}
  sub b c := {z | ∃ x ∈ b, ∃ y ∈ c, z = x - y}
  neg b := {z | ∃ x ∈ b, z = -x}
  mul b c := {z | ∃ x ∈ b, ∃ y ∈ c, z = x * y}
  sqr b := {z | ∃ x ∈ b, z = x ^ 2}
  mulSi b k := {z | ∃ x ∈ b, z = x * k}
  divSi b k := {z | ∃ x ∈ b, z = x / k}
  addmulSi b c k := {z | ∃ x ∈ b, ∃ y ∈ c, z = x + y * k}
  mul2exp b k := {z | ∃ x ∈ b, z = x * 2 ^ k}
  log b := {z | ∃ x ∈ b, z = Real.log x}
  exp b := {z | ∃ x ∈ b, z = Real.exp x}
  pi := {Real.pi}
  mid b := {midf b}
  inter b c := b ∩ c
  radSym b := {d | ∃ y ∈ b, d = y - midf b ∨ d = midf b - y}
  overlaps b c := decide (b ∩ c).Nonempty
  containsZero b := decide ((0 : ℝ) ∈ b)
  isPositive b := decide (∀ x ∈ b, 0 < x)
  isOne b := decide (∀ x ∈ b, x = 1)
  addSi P k := (List.range (max 1 P.length)).map fun i => {z | ∃ x ∈ P.getD i {0}, z = x + if i = 0 then (k : ℝ) else 0}
  negP P := P.map fun b => {z | ∃ x ∈ b, z = -x}
  scalar2exp P k := P.map fun b => {z | ∃ x ∈ b, z = (2 : ℝ) ^ k * x}
  derivative P := (List.range P.length).map fun i => {z | ∃ x ∈ P.getD (i + 1) {0}, z = x * (i + 1)}
  integral P := (List.range (P.length + 1)).map fun i =>
    if i = 0 then {0} else {z | ∃ x ∈ P.getD (i - 1) {0}, z = x / i}
  addSeries P Q n := img n {H | ∃ F ∈ box n P, ∃ G ∈ box n Q, H = F + G}
  subSeries P Q n := img n {H | ∃ F ∈ box n P, ∃ G ∈ box n Q, H = F - G}
  mullow P Q n := img n {H | ∃ F ∈ box n P, ∃ G ∈ box n Q, H = F * G}
  invSeries P n := img n {H | ∃ F ∈ box n P, constantCoeff F ≠ 0 ∧ H = F⁻¹}
  divSeries P Q n := img n {H | ∃ F ∈ box n P, ∃ G ∈ box n Q, constantCoeff G ≠ 0 ∧ H = F * G⁻¹}
  expSeries P n := (List.range n).map fun i => {c | ∃ F ∈ box n P, ∃ w ∈ W i, c = coeff i (rexp F) + w}
  logSeries P n := img n {H | ∃ F ∈ box n P, 0 < constantCoeff F ∧ H = rlog F}
  log1pSeries P n := img n {H | ∃ F ∈ box n P, H = rlog (1 + F)}

/-- Membership. -/
abbrev smem : ℝ → Set ℝ → Prop := fun x b => x ∈ b

theorem enc_img {n : ℕ} {T : Set ℝ⟦X⟧} {F : ℝ⟦X⟧} (h : F ∈ T) : Encloses smem {0} n (img n T) F := by
  intro i hi
  rw [img, getD_map_range, if_pos hi]
  exact ⟨F, h, rfl⟩

theorem setArb_sound (W : ℕ → Set ℝ) (hW : ∀ i, (0 : ℝ) ∈ W i) : ArbSound (setArb W) smem where
  zero x := Iff.rfl
  one := rfl
  add h h' := ⟨_, h, _, h', rfl⟩
  sub h h' := ⟨_, h, _, h', rfl⟩
  neg h := ⟨_, h, rfl⟩
  mul h h' := ⟨_, h, _, h', rfl⟩
  sqr h := ⟨_, h, rfl⟩
  mulSi _ h := ⟨_, h, rfl⟩
  divSi _ _ h := ⟨_, h, rfl⟩
  addmulSi _ h h' := ⟨_, h, _, h', rfl⟩
  mul2exp _ h := ⟨_, h, rfl⟩
  log _ h := ⟨_, h, rfl⟩
  exp h := ⟨_, h, rfl⟩
  pi := rfl
  mid {x b} h := ⟨midf b, midf_mem h, rfl, fun y hy => ⟨⟨y, hy, Or.inl rfl⟩, ⟨y, hy, Or.inr rfl⟩⟩⟩
  inter h h' := ⟨h, h'⟩
  overlaps h h' := decide_eq_true ⟨_, h, h'⟩
  containsZero h := decide_eq_true h
  isPositive h h' := of_decide_eq_true h _ h'
  isOne h h' := of_decide_eq_true h _ h'
  addSi {n P F} k h i hi := by
    show coeff i (F + C (k : ℝ)) ∈ ((List.range (max 1 P.length)).map _).getD i {0}
    rw [getD_map_range, map_add, coeff_C]
    split_ifs with h1 h2 h2
    · exact ⟨_, h i hi, rfl⟩
    · exact ⟨_, h i hi, rfl⟩
    · omega
    · have := h i hi
      rw [List.getD_eq_default _ _ (by omega)] at this
      rw [add_zero]; exact this
  negP {n P F} h i hi := by
    show coeff i (-F) ∈ (P.map _).getD i {0}
    have := h i hi
    by_cases hl : i < P.length
    · rw [List.getD_eq_getElem _ _ (by simpa using hl), List.getElem_map]
      rw [List.getD_eq_getElem _ _ hl] at this
      exact ⟨_, this, by rw [map_neg]⟩
    · rw [List.getD_eq_default _ _ (by simpa using hl), map_neg]
      rw [List.getD_eq_default _ _ (by omega)] at this
      have e : coeff i F = 0 := this
      rw [e, neg_zero]; rfl
  negP_length P := by show (P.map _).length ≤ _; rw [List.length_map]
  scalar2exp {n P F} k h i hi := by
    show coeff i (C ((2 : ℝ) ^ k) * F) ∈ (P.map _).getD i {0}
    have := h i hi
    by_cases hl : i < P.length
    · rw [List.getD_eq_getElem _ _ (by simpa using hl), List.getElem_map]
      rw [List.getD_eq_getElem _ _ hl] at this
      exact ⟨_, this, by rw [coeff_C_mul]⟩
    · rw [List.getD_eq_default _ _ (by simpa using hl), coeff_C_mul]
      rw [List.getD_eq_default _ _ (by omega)] at this
      have e : coeff i F = 0 := this
      rw [e, mul_zero]; rfl
  derivative {n P F} h i hi := by
    show coeff i (d⁄dX ℝ F) ∈ ((List.range P.length).map _).getD i {0}
    have := h (i + 1) (by omega)
    rw [getD_map_range, coeff_derivative]
    split_ifs with hl
    · exact ⟨_, this, rfl⟩
    · rw [List.getD_eq_default _ _ (by omega)] at this
      have e : coeff (i + 1) F = 0 := this
      rw [e, zero_mul]; rfl
  integral {n P F} h0 h i hi := by
    show coeff i F ∈ ((List.range (P.length + 1)).map _).getD i {0}
    rw [getD_map_range]
    rcases i with _ | i
    · rw [if_pos (by omega), if_pos rfl, coeff_zero_eq_constantCoeff_apply, h0]; rfl
    · have := h i (by omega)
      rw [coeff_derivative] at this
      have hp : ((i : ℝ) + 1) ≠ 0 := by positivity
      by_cases hl : i + 1 < P.length + 1
      · rw [if_pos hl, if_neg (Nat.succ_ne_zero i)]
        refine ⟨_, this, ?_⟩
        push_cast
        rw [mul_div_cancel_right₀ _ hp]
      · rw [if_neg hl]
        rw [List.getD_eq_default _ _ (by omega)] at this
        have e : coeff (i + 1) F * ((i : ℝ) + 1) = 0 := this
        rcases mul_eq_zero.1 e with e | e
        · rw [e]; rfl
        · exact absurd e hp
  addSeries {n P Q F G} h h' := enc_img (T := {H | ∃ F ∈ box n P, ∃ G ∈ box n Q, H = F + G}) ⟨F, h, G, h', rfl⟩
  subSeries {n P Q F G} h h' := enc_img (T := {H | ∃ F ∈ box n P, ∃ G ∈ box n Q, H = F - G}) ⟨F, h, G, h', rfl⟩
  subSeries_length P Q n := by show ((List.range n).map _).length ≤ _; simp
  mullow {n P Q F G} h h' := enc_img (T := {H | ∃ F ∈ box n P, ∃ G ∈ box n Q, H = F * G}) ⟨F, h, G, h', rfl⟩
  invSeries {n P F} hc h := enc_img (T := {H | ∃ F ∈ box n P, constantCoeff F ≠ 0 ∧ H = F⁻¹}) ⟨F, h, hc, rfl⟩
  invSeries_mid {n P F} hn hc h := by
    have e : ((setArb W).invSeries P n).getD 0 (setArb W).zero =
        {c | ∃ G ∈ {H | ∃ F ∈ box n P, constantCoeff F ≠ 0 ∧ H = F⁻¹}, c = coeff 0 G} := by
      show (img n _).getD 0 {0} = _
      rw [img, getD_map_range, if_pos hn]
    rw [e]
    have hm : midf _ ∈ {c | ∃ G ∈ {H | ∃ F ∈ box n P, constantCoeff F ≠ 0 ∧ H = F⁻¹}, c = coeff 0 G} :=
      midf_mem (x := coeff 0 F⁻¹) ⟨F⁻¹, ⟨F, h, hc, rfl⟩, rfl⟩
    refine ⟨midf _, ?_, hm, rfl⟩
    obtain ⟨G, ⟨F', -, hc', rfl⟩, e'⟩ := hm
    rw [e', coeff_zero_eq_constantCoeff_apply, constantCoeff_inv]
    exact inv_ne_zero hc'
  divSeries {n P Q F G} hc h h' :=
    enc_img (T := {H | ∃ F ∈ box n P, ∃ G ∈ box n Q, constantCoeff G ≠ 0 ∧ H = F * G⁻¹}) ⟨F, h, G, h', hc, rfl⟩
  expSeries {n P F} h i hi := by
    show coeff i (rexp F) ∈ ((List.range n).map _).getD i {0}
    rw [getD_map_range, if_pos hi]
    exact ⟨F, h, 0, hW i, (add_zero _).symm⟩
  expSeries_length P n := by show ((List.range n).map _).length ≤ n; simp
  logSeries {n P F} hc h := enc_img (T := {H | ∃ F ∈ box n P, 0 < constantCoeff F ∧ H = rlog F}) ⟨F, h, hc, rfl⟩
  log1pSeries {n P F} _ h := enc_img (T := {H | ∃ F ∈ box n P, H = rlog (1 + F)}) ⟨F, h, rfl⟩

/-! ### Single points -/

/-- Every coefficient has at most one value. -/
def Pt (P : List (Set ℝ)) : Prop := ∀ i, (P.getD i {0}).Subsingleton

theorem Pt.agree {P : List (Set ℝ)} (h : Pt P) {n : ℕ} {F G : ℝ⟦X⟧} (hF : F ∈ box n P) (hG : G ∈ box n P) :
    Agree n F G := fun i hi => h i (hF i hi) (hG i hi)

theorem pt_img {n : ℕ} {T : Set ℝ⟦X⟧} (h : ∀ F ∈ T, ∀ G ∈ T, Agree n F G) : Pt (img n T) := by
  intro i
  rw [img, getD_map_range]
  split_ifs with hi
  · rintro _ ⟨F, hF, rfl⟩ _ ⟨G, hG, rfl⟩
    exact h F hF G hG i hi
  · exact Set.subsingleton_singleton

variable (W : ℕ → Set ℝ)

theorem pt_mullow {P Q : List (Set ℝ)} (hP : Pt P) (hQ : Pt Q) (n : ℕ) : Pt ((setArb W).mullow P Q n) := by
  refine pt_img ?_
  rintro _ ⟨F, hF, G, hG, rfl⟩ _ ⟨F', hF', G', hG', rfl⟩
  exact (hP.agree hF hF').mul (hQ.agree hG hG')

theorem pt_subSeries {P Q : List (Set ℝ)} (hP : Pt P) (hQ : Pt Q) (n : ℕ) : Pt ((setArb W).subSeries P Q n) := by
  refine pt_img ?_
  rintro _ ⟨F, hF, G, hG, rfl⟩ _ ⟨F', hF', G', hG', rfl⟩
  exact (hP.agree hF hF').sub (hQ.agree hG hG')

theorem pt_invSeries {P : List (Set ℝ)} (hP : Pt P) (n : ℕ) : Pt ((setArb W).invSeries P n) := by
  refine pt_img ?_
  rintro _ ⟨F, hF, hc, rfl⟩ _ ⟨F', hF', hc', rfl⟩
  exact (hP.agree hF hF').inv hc hc'

theorem pt_derivative {P : List (Set ℝ)} (hP : Pt P) : Pt ((setArb W).derivative P) := by
  intro i
  show Set.Subsingleton (((List.range P.length).map
    fun i : ℕ => {z : ℝ | ∃ x ∈ P.getD (i + 1) {0}, z = x * ((i : ℝ) + 1)}).getD i {0})
  rw [getD_map_range]
  split_ifs with hi
  · rintro _ ⟨x, hx, rfl⟩ _ ⟨y, hy, rfl⟩
    rw [hP _ hx hy]
  · exact Set.subsingleton_singleton

theorem pt_integral {P : List (Set ℝ)} (hP : Pt P) : Pt ((setArb W).integral P) := by
  intro i
  show Set.Subsingleton (((List.range (P.length + 1)).map fun i : ℕ =>
    if i = 0 then {0} else {z : ℝ | ∃ x ∈ P.getD (i - 1) {0}, z = x / (i : ℝ)}).getD i {0})
  rw [getD_map_range]
  split_ifs with hi
  · exact Set.subsingleton_singleton
  · rintro _ ⟨x, hx, rfl⟩ _ ⟨y, hy, rfl⟩
    rw [hP _ hx hy]
  · exact Set.subsingleton_singleton

theorem mapM_ok_inv {α β : Type} {f : α → Res β} (g : α → β) (hf : ∀ a b, f a = .ok b → b = g a) :
    ∀ (l : List α) (r : List β), l.mapM f = .ok r → r = l.map g
  | [], r, h => by cases h; rfl
  | a :: l, r, h => by
    rw [List.mapM_cons] at h
    cases e : f a with
    | error e' => rw [e] at h; cases h
    | ok b =>
      rw [e, bok] at h
      cases e2 : l.mapM f with
      | error e' => rw [e2] at h; cases h
      | ok r' =>
        rw [e2, bok, pok] at h
        cases h
        rw [hf a b e, mapM_ok_inv g hf l r' e2]; rfl

theorem intersectSub_eq {B : Type} {A : Arb B} {R P Q r : List B} {n : ℕ} (h : intersectSub A R P Q n = .ok r) :
    r = (List.range (min (min n R.length) (max P.length Q.length))).map fun i =>
      A.inter (get A R i) (A.sub (get A P i) (get A Q i)) := by
  unfold intersectSub at h
  refine mapM_ok_inv _ ?_ _ _ h
  intro i b hb
  simp only [slowAssert] at hb
  split_ifs at hb
  · cases hb; rfl
  · cases hb

end

end ArbPoly

end Mandelbrot
