import Verif.Float.Expansion

/-!
# Lemmas about the product of expansions, /repo/codelets.cc 235-266
-/

namespace Mandelbrot.Float

variable {F : Fmt} {rn : ℝ → ℝ}

/-- The places fall off geometrically: place `i` is at most `B ρ^(k+i)`. -/
def Within (B ρ : ℝ) : ℕ → List Sc → Prop
  | _, [] => True
  | k, a :: l => |a.val| ≤ B * ρ ^ k ∧ Within B ρ (k + 1) l

theorem within_of_get {B ρ : ℝ} : ∀ (l : List Sc) (k : ℕ), (∀ i (hi : i < l.length), |(l[i]).val| ≤ B * ρ ^ (k + i)) → Within B ρ k l := by
  intro l
  induction l with
  | nil => intros; trivial
  | cons a l ih =>
    intro k h
    refine ⟨h 0 (by simp), ih (k + 1) fun i hi => ?_⟩
    have := h (i + 1) (by simpa using hi)
    simp only [List.getElem_cons_succ] at this
    rwa [show k + 1 + i = k + (i + 1) by omega]

theorem Within.mono {B B' ρ : ℝ} (hρ : 0 ≤ ρ) (h : B ≤ B') : ∀ {l : List Sc} {k : ℕ}, Within B ρ k l → Within B' ρ k l := by
  intro l
  induction l with
  | nil => intros; trivial
  | cons a l ih =>
    intro k hw
    exact ⟨hw.1.trans (mul_le_mul_of_nonneg_right h (by positivity)), ih hw.2⟩

theorem Within.drop {B ρ : ℝ} : ∀ {l : List Sc} {k : ℕ} (m : ℕ), Within B ρ k l → Within B ρ (k + m) (l.drop m) := by
  intro l k m
  induction m generalizing l k with
  | zero => intro h; exact h
  | succ m ih =>
    intro h
    cases l with
    | nil => trivial
    | cons a l =>
      have := ih h.2
      rwa [show k + 1 + m = k + (m + 1) by omega] at this

theorem Within.dropLast {B ρ : ℝ} : ∀ {l : List Sc} {k : ℕ}, Within B ρ k l → Within B ρ k l.dropLast := by
  intro l
  induction l with
  | nil => intros; trivial
  | cons a l ih =>
    intro k h
    cases l with
    | nil => trivial
    | cons b l => exact ⟨h.1, ih h.2⟩

theorem Within.snoc {B ρ : ℝ} (hB : 0 ≤ B) (hρ : 0 ≤ ρ) : ∀ {l : List Sc} {k : ℕ}, Within B ρ k l → Within B ρ k (l ++ [none]) := by
  intro l
  induction l with
  | nil => intro k _; exact ⟨by simp only [Sc.val, Option.getD_none, abs_zero]; positivity, trivial⟩
  | cons a l ih => intro k h; exact ⟨h.1, ih h.2⟩

theorem Within.last {B ρ : ℝ} : ∀ {l : List Sc} {k : ℕ}, Within B ρ k l → ∀ a ∈ l.getLast?.toList, |a.val| ≤ B * ρ ^ (k + l.length - 1) := by
  intro l
  induction l with
  | nil => intro k _ a ha; simp at ha
  | cons b l ih =>
    intro k h a ha
    cases l with
    | nil =>
      have : a = b := by simpa using ha
      subst this
      simpa using h.1
    | cons c l =>
      have := ih h.2 a (by simpa using ha)
      simp only [List.length_cons] at this ⊢
      rwa [show k + 1 + (l.length + 1) - 1 = k + (l.length + 1 + 1) - 1 by omega] at this

theorem Within.total_le {B ρ : ℝ} (hB : 0 ≤ B) (hρ : 0 ≤ ρ) (hρ1 : ρ ≤ 1) : ∀ {l : List Sc} {k : ℕ}, Within B ρ k l →
    |total l| ≤ l.length * (B * ρ ^ k) := by
  intro l
  induction l with
  | nil => intro k _; simp
  | cons a l ih =>
    intro k h
    have h1 := ih h.2
    have h2 : B * ρ ^ (k + 1) ≤ B * ρ ^ k := mul_le_mul_of_nonneg_left (pow_le_pow_of_le_one hρ hρ1 (by omega)) hB
    have h3 : (l.length : ℝ) * (B * ρ ^ (k + 1)) ≤ l.length * (B * ρ ^ k) := mul_le_mul_of_nonneg_left h2 (by positivity)
    rw [total_cons]
    refine (abs_add_le _ _).trans ?_
    have h4 := h.1
    push_cast [List.length_cons]
    linarith

theorem total_le_of_forall {B : ℝ} : ∀ {l : List Sc}, (∀ a ∈ l, |a.val| ≤ B) → |total l| ≤ l.length * B := by
  intro l
  induction l with
  | nil => intro _; simp
  | cons a l ih =>
    intro h
    have h1 := ih fun b hb => h b (by simp [hb])
    have h2 := h a (by simp)
    rw [total_cons]
    refine (abs_add_le _ _).trans ?_
    push_cast [List.length_cons]
    linarith

/-! ## One `two_sum` for every place -/

theorem addPlaces_spec (h : F.Rounds rn) : ∀ (s e : List Sc), s.length = e.length → (∀ a ∈ s, a.Ok F) → (∀ a ∈ e, a.Ok F) →
    (∀ a ∈ (addPlaces rn s e).1, a.Ok F) ∧ (∀ a ∈ (addPlaces rn s e).2, a.Ok F) ∧
      total (addPlaces rn s e).1 + total (addPlaces rn s e).2 = total s + total e := by
  intro s
  induction s with
  | nil => intro e he _ _; cases e <;> simp_all [addPlaces]
  | cons a s ih =>
    intro e he hs hq
    cases e with
    | nil => simp at he
    | cons b e =>
      obtain ⟨h1, h2, h3⟩ := ih e (by simpa using he) (fun c hc => hs c (by simp [hc])) (fun c hc => hq c (by simp [hc]))
      have ha := hs a (by simp)
      have hb := hq b (by simp)
      obtain ⟨o1, o2⟩ := twoSum_ok h ha hb
      have hsum := twoSum_sum h ha hb
      refine ⟨?_, ?_, ?_⟩
      · intro c hc
        simp only [addPlaces, List.mem_cons] at hc
        rcases hc with rfl | hc
        · exact o1
        · exact h1 c hc
      · intro c hc
        simp only [addPlaces, List.mem_cons] at hc
        rcases hc with rfl | hc
        · exact o2
        · exact h2 c hc
      · simp only [addPlaces, total_cons]; linarith

theorem addPlaces_length : ∀ (s e : List Sc), s.length = e.length →
    (addPlaces rn s e).1.length = s.length ∧ (addPlaces rn s e).2.length = s.length := by
  intro s
  induction s with
  | nil => intro e he; cases e <;> simp_all [addPlaces]
  | cons a s ih =>
    intro e he
    cases e with
    | nil => simp at he
    | cons b e =>
      obtain ⟨h1, h2⟩ := ih e (by simpa using he)
      simp [addPlaces, h1, h2]

theorem addPlaces_none : ∀ (s e : List Sc) (c : ℕ), (∀ a ∈ e.take c, a = none) → ∀ a ∈ (addPlaces rn s e).2.take c, a = none := by
  intro s
  induction s with
  | nil => intro e c _ a ha; simp [addPlaces] at ha
  | cons b s ih =>
    intro e c he a ha
    cases e with
    | nil => simp [addPlaces] at ha
    | cons d e =>
      cases c with
      | zero => simp at ha
      | succ c =>
        have hd : d = none := he d (by simp)
        subst hd
        simp only [addPlaces, List.take_succ_cons, List.mem_cons] at ha
        rcases ha with rfl | ha
        · cases b <;> rfl
        · exact ih e c (fun x hx => he x (by simp [hx])) a ha

theorem addPlaces_within (hp : 1 ≤ F.p) (h : F.Rounds rn) {A B κ : ℝ} (hκ : A + B ≤ κ * B) (hκ0 : 0 ≤ κ) :
    ∀ (s e : List Sc) (k : ℕ), (∀ a ∈ s, a.Ok F) → (∀ a ∈ e, a.Ok F) → Within A (κ * F.u) k s → Within B (κ * F.u) k e →
      Within ((1 + F.u) * (A + B)) (κ * F.u) k (addPlaces rn s e).1 ∧ Within B (κ * F.u) (k + 1) (addPlaces rn s e).2 := by
  have hu := u_pos (F := F)
  intro s
  induction s with
  | nil => intros; exact ⟨trivial, trivial⟩
  | cons a s ih =>
    intro e k hs he ws we
    cases e with
    | nil => exact ⟨trivial, trivial⟩
    | cons b e =>
      obtain ⟨h1, h2⟩ := ih e (k + 1) (fun c hc => hs c (by simp [hc])) (fun c hc => he c (by simp [hc])) ws.2 we.2
      obtain ⟨b1, b2⟩ := twoSum_bounds hp h (hs a (by simp)) (he b (by simp))
      have hsum : |a.val| + |b.val| ≤ (A + B) * (κ * F.u) ^ k := by rw [add_mul]; exact add_le_add ws.1 we.1
      refine ⟨⟨b1.trans ?_, h1⟩, ⟨b2.trans ?_, h2⟩⟩
      · rw [mul_assoc]; exact mul_le_mul_of_nonneg_left hsum (by linarith)
      · refine (mul_le_mul_of_nonneg_left hsum hu.le).trans ?_
        have hpk : 0 ≤ (κ * F.u) ^ k := by positivity
        calc F.u * ((A + B) * (κ * F.u) ^ k) ≤ F.u * (κ * B * (κ * F.u) ^ k) :=
              mul_le_mul_of_nonneg_left (mul_le_mul_of_nonneg_right hκ hpk) hu.le
          _ = B * (κ * F.u) ^ (k + 1) := by rw [pow_succ]; ring

/-! ## The draining loop -/

theorem total_dropLast : ∀ (l : List Sc), total l.dropLast + total l.getLast?.toList = total l := by
  intro l
  induction l with
  | nil => simp
  | cons a l ih =>
    cases l with
    | nil => simp
    | cons b l =>
      simp only [List.dropLast_cons_cons, total_cons, List.getLast?_cons_cons] at ih ⊢
      linarith

theorem drain_length : ∀ (fuel : ℕ) (s e out : List Sc), s.length = e.length →
    (drain rn fuel s e out).1.length = s.length ∧ (drain rn fuel s e out).2.1.length = s.length := by
  intro fuel
  induction fuel with
  | zero => intro s e out he; exact ⟨rfl, he.symm⟩
  | succ fuel ih =>
    intro s e out he
    rw [drain]
    split
    · rename_i hany
      obtain ⟨l1, l2⟩ := addPlaces_length (rn := rn) s e he
      have hpos : 0 < e.length := by
        cases e with
        | nil => simp at hany
        | cons _ _ => simp
      obtain ⟨h1, h2⟩ := ih (addPlaces rn s e).1 (none :: (addPlaces rn s e).2.dropLast) (out ++ (addPlaces rn s e).2.getLast?.toList)
        (by simp only [List.length_cons, List.length_dropLast, l1, l2]; omega)
      exact ⟨h1.trans l1, h2.trans l1⟩
    · exact ⟨rfl, he.symm⟩

theorem drain_spec (h : F.Rounds rn) : ∀ (fuel : ℕ) (s e out : List Sc), s.length = e.length → (∀ a ∈ s, a.Ok F) → (∀ a ∈ e, a.Ok F) →
    (∀ a ∈ (drain rn fuel s e out).1, a.Ok F) ∧
      total (drain rn fuel s e out).1 + total (drain rn fuel s e out).2.1 + total (drain rn fuel s e out).2.2 =
        total s + total e + total out := by
  intro fuel
  induction fuel with
  | zero => intro s e out _ hs _; exact ⟨hs, rfl⟩
  | succ fuel ih =>
    intro s e out he hs hq
    rw [drain]
    split
    · rename_i hany
      obtain ⟨l1, l2⟩ := addPlaces_length (rn := rn) s e he
      obtain ⟨p1, p2, p3⟩ := addPlaces_spec h s e he hs hq
      have hpos : 0 < e.length := by
        cases e with
        | nil => simp at hany
        | cons _ _ => simp
      obtain ⟨h1, h2⟩ := ih (addPlaces rn s e).1 (none :: (addPlaces rn s e).2.dropLast) (out ++ (addPlaces rn s e).2.getLast?.toList)
        (by simp only [List.length_cons, List.length_dropLast, l1, l2]; omega) p1 (by
          intro a ha
          simp only [List.mem_cons] at ha
          rcases ha with rfl | ha
          · exact Sc.ok_none
          · exact p2 a (List.dropLast_subset _ ha))
      refine ⟨h1, h2.trans ?_⟩
      have := total_dropLast (addPlaces rn s e).2
      simp only [total_cons, total_append, Sc.val, Option.getD_none]
      linarith
    · exact ⟨hs, rfl⟩

/-- After as many rounds as there are places nothing is left to add. -/
theorem drain_done : ∀ (fuel c : ℕ) (s e out : List Sc), s.length = e.length → e.length ≤ fuel + c → (∀ a ∈ e.take c, a = none) →
    ∀ a ∈ (drain rn fuel s e out).2.1, a = none := by
  intro fuel
  induction fuel with
  | zero =>
    intro c s e out _ hc he a ha
    rw [List.take_of_length_le (by omega)] at he
    exact he a ha
  | succ fuel ih =>
    intro c s e out hl hc he
    rw [drain]
    split
    · rename_i hany
      obtain ⟨l1, l2⟩ := addPlaces_length (rn := rn) s e hl
      have hpos : 0 < e.length := by
        cases e with
        | nil => simp at hany
        | cons _ _ => simp
      refine ih (c + 1) _ _ _ (by simp only [List.length_cons, List.length_dropLast, l1, l2]; omega)
        (by simp only [List.length_cons, List.length_dropLast, l2]; omega) ?_
      intro a ha
      simp only [List.take_succ_cons, List.mem_cons] at ha
      rcases ha with rfl | ha
      · rfl
      · refine addPlaces_none (rn := rn) s e c he a ?_
        rw [List.dropLast_eq_take, List.take_take] at ha
        exact List.take_subset_take_left _ (min_le_left _ _) ha
    · rename_i hany
      intro a ha
      cases a with
      | none => rfl
      | some v => exact absurd (List.any_eq_true.mpr ⟨some v, ha, rfl⟩) hany

theorem drain_none {e : List Sc} (he : ∀ a ∈ e, a = none) (fuel : ℕ) (s out : List Sc) : drain rn fuel s e out = (s, e, out) := by
  cases fuel with
  | zero => rfl
  | succ fuel =>
    rw [drain, if_neg]
    rw [List.any_eq_true]
    rintro ⟨a, ha, hs⟩
    rw [he a ha] at hs
    simp at hs

theorem drain_add : ∀ (f g : ℕ) (s e out : List Sc),
    drain rn (f + g) s e out = drain rn g (drain rn f s e out).1 (drain rn f s e out).2.1 (drain rn f s e out).2.2 := by
  intro f
  induction f with
  | zero => intro g s e out; rw [Nat.zero_add]; rfl
  | succ f ih =>
    intro g s e out
    by_cases hany : e.any Option.isSome = true
    · rw [show f + 1 + g = f + g + 1 by omega, drain, if_pos hany, ih]
      conv_rhs => rw [drain, if_pos hany]
    · have he : ∀ a ∈ e, a = none := by
        intro a ha
        cases a with
        | none => rfl
        | some v => exact absurd (List.any_eq_true.mpr ⟨some v, ha, rfl⟩) hany
      rw [drain_none he, drain_none he, drain_none he]

/-- The loop `while (any(e))` ends by itself: no further round changes anything. -/
theorem drain_stable {s e out : List Sc} (hl : s.length = e.length) (fuel : ℕ) (hf : e.length ≤ fuel) :
    drain rn fuel s e out = drain rn e.length s e out := by
  obtain ⟨g, rfl⟩ := Nat.exists_eq_add_of_le hf
  rw [drain_add, drain_none (drain_done e.length 0 s e out hl (by omega) (by simp))]

theorem total_none {e : List Sc} (he : ∀ a ∈ e, a = none) : total e = 0 := by
  induction e with
  | nil => rfl
  | cons a e ih =>
    rw [total_cons, ih fun b hb => he b (by simp [hb]), he a (by simp)]
    simp [Sc.val]

/-- The bound `m (1 + u)^m` on a place to which `m` numbers were added. -/
noncomputable def grow (F : Fmt) (m : ℕ) : ℝ := m * (1 + F.u) ^ m

theorem grow_nonneg (m : ℕ) : 0 ≤ grow F m := by
  have := u_pos (F := F)
  unfold grow; positivity

theorem grow_mono {m n : ℕ} (h : m ≤ n) : grow F m ≤ grow F n := by
  have hu := u_pos (F := F)
  exact mul_le_mul (by exact_mod_cast h) (pow_le_pow_right₀ (by linarith) h) (by positivity) (by positivity)

theorem grow_step {B : ℝ} (hB : 0 ≤ B) (m : ℕ) : (1 + F.u) * (grow F m * B + B) ≤ grow F (m + 1) * B := by
  have hu := u_pos (F := F)
  have h3 : (1 : ℝ) ≤ (1 + F.u) ^ m := one_le_pow₀ (by linarith)
  have h4 : (1 + F.u) * (grow F m * B + B) ≤ (1 + F.u) * (grow F m * B + (1 + F.u) ^ m * B) := by
    refine mul_le_mul_of_nonneg_left ?_ (by linarith)
    have : B ≤ (1 + F.u) ^ m * B := le_mul_of_one_le_left hB h3
    linarith
  refine h4.trans (le_of_eq ?_)
  unfold grow
  push_cast; rw [pow_succ]; ring

theorem drain_within (hp : 1 ≤ F.p) (h : F.Rounds rn) {B κ : ℝ} (hB : 0 ≤ B) {N : ℕ} (hκ : 1 + grow F N ≤ κ) (k n : ℕ) :
    ∀ (fuel : ℕ) (s e out : List Sc) (m : ℕ), m + fuel ≤ N → s.length = n → e.length = n → (∀ a ∈ s, a.Ok F) → (∀ a ∈ e, a.Ok F) →
      Within (grow F m * B) (κ * F.u) k s → Within B (κ * F.u) k e → (∀ a ∈ out, |a.val| ≤ B * (κ * F.u) ^ (k + n)) →
      Within (grow F (m + fuel) * B) (κ * F.u) k (drain rn fuel s e out).1 ∧
        (∀ a ∈ (drain rn fuel s e out).2.2, |a.val| ≤ B * (κ * F.u) ^ (k + n)) ∧
        (drain rn fuel s e out).2.2.length ≤ out.length + fuel := by
  have hu := u_pos (F := F)
  have hκ0 : 0 ≤ κ := le_trans (by have := grow_nonneg (F := F) N; linarith) hκ
  have hκu : 0 ≤ κ * F.u := by positivity
  intro fuel
  induction fuel with
  | zero => intro s e out m _ _ _ _ _ ws _ ho; exact ⟨ws, ho, by simp [drain]⟩
  | succ fuel ih =>
    intro s e out m hm hs he os oe ws we ho
    rw [drain]
    split
    · rename_i hany
      obtain ⟨l1, l2⟩ := addPlaces_length (rn := rn) s e (by omega)
      obtain ⟨p1, p2, _⟩ := addPlaces_spec h s e (by omega) os oe
      have hpos : 0 < e.length := by
        cases e with
        | nil => simp at hany
        | cons _ _ => simp
      have hκ' : grow F m * B + B ≤ κ * B := by
        have : grow F m ≤ grow F N := grow_mono (by omega)
        have h2 : (grow F m + 1) * B ≤ κ * B := mul_le_mul_of_nonneg_right (by linarith) hB
        linarith
      obtain ⟨w1, w2⟩ := addPlaces_within hp h hκ' hκ0 s e k os oe ws we
      have hlast := w2.last
      obtain ⟨h1, h2, h3⟩ := ih (addPlaces rn s e).1 (none :: (addPlaces rn s e).2.dropLast)
        (out ++ (addPlaces rn s e).2.getLast?.toList) (m + 1) (by omega) (by omega)
        (by simp only [List.length_cons, List.length_dropLast, l2]; omega) p1 (by
          intro a ha
          simp only [List.mem_cons] at ha
          rcases ha with rfl | ha
          · exact Sc.ok_none
          · exact p2 a (List.dropLast_subset _ ha))
        (w1.mono hκu (grow_step hB m))
        ⟨by simp only [Sc.val, Option.getD_none, abs_zero]; positivity, w2.dropLast⟩ (by
          intro a ha
          rw [List.mem_append] at ha
          rcases ha with ha | ha
          · exact ho a ha
          · have := hlast a ha
            rwa [l2, hs, show k + 1 + n - 1 = k + n by omega] at this)
      refine ⟨by rwa [show m + 1 + fuel = m + (fuel + 1) by omega] at h1, h2, h3.trans ?_⟩
      rw [List.length_append]
      have : (addPlaces rn s e).2.getLast?.toList.length ≤ 1 := by
        cases (addPlaces rn s e).2.getLast? <;> simp
      omega
    · exact ⟨ws.mono hκu (mul_le_mul_of_nonneg_right (grow_mono (by omega)) hB), ho, by simp⟩

/-! ## One round of the outer loop -/

/-- The product of two numbers does not underflow: its lowest bit is at least the smallest number. -/
def NoUnderflow (F : Fmt) (a b : ℝ) : Prop := ∃ m n j k : ℤ, a = m * (2 : ℝ) ^ j ∧ b = n * (2 : ℝ) ^ k ∧ |m| ≤ 2 ^ F.p ∧
  |n| ≤ 2 ^ F.p ∧ F.emin ≤ j + k

theorem NoUnderflow.mult {a b : ℝ} (h : NoUnderflow F a b) : Mult F.emin (a * b) := by
  obtain ⟨m, n, j, k, rfl, rfl, _, _, hjk⟩ := h
  refine Mult.mono (k := j + k) ?_ hjk
  exact ⟨m * n, by push_cast; rw [zpow_add₀ (by norm_num)]; ring⟩

theorem twoProd_spec (h : F.Rounds rn) {a b : ℝ} (hu : NoUnderflow F a b) :
    twoProd rn a b = (rn (a * b), a * b - rn (a * b)) ∧ F.Rep (a * b - rn (a * b)) := by
  obtain ⟨m, n, j, k, rfl, rfl, hm, hn, hjk⟩ := hu
  have herr := mul_error rfl hm rfl hn hjk (h _)
  refine ⟨?_, herr⟩
  simp only [twoProd]
  congr 1
  rw [← sub_eq_add_neg, rounds_eq h herr]

theorem twoProd_bounds (hp : 1 ≤ F.p) (h : F.Rounds rn) {a b : ℝ} (hn : NoUnderflow F a b) :
    |(twoProd rn a b).1| ≤ (1 + F.u) * |a * b| ∧ |(twoProd rn a b).2| ≤ F.u * |a * b| := by
  have he : |a * b - rn (a * b)| ≤ F.u * |a * b| := by
    unfold Fmt.u; rw [one_div, inv_mul_eq_div]; exact rel_error hp hn.mult (h _)
  rw [(twoProd_spec h hn).1]
  refine ⟨?_, he⟩
  have : |rn (a * b)| ≤ |a * b| + |a * b - rn (a * b)| := by
    calc |rn (a * b)| = |a * b - (a * b - rn (a * b))| := by congr 1; ring
      _ ≤ _ := abs_sub _ _
  show |rn (a * b)| ≤ _
  linarith

theorem prods_spec (h : F.Rounds rn) (yi : ℝ) : ∀ (x : List ℝ), (∀ a ∈ x, NoUnderflow F a yi) →
    (∀ a ∈ (x.map fun xj => twoProd rn xj yi).map (fun q => some q.1), Sc.Ok F a) ∧
    (∀ a ∈ (x.map fun xj => twoProd rn xj yi).map (fun q => some q.2), Sc.Ok F a) ∧
    total ((x.map fun xj => twoProd rn xj yi).map fun q => some q.1) + total ((x.map fun xj => twoProd rn xj yi).map fun q => some q.2) =
      x.sum * yi := by
  intro x
  induction x with
  | nil => intro _; simp
  | cons a x ih =>
    intro hx
    obtain ⟨h1, h2, h3⟩ := ih fun b hb => hx b (by simp [hb])
    obtain ⟨e, hr⟩ := twoProd_spec h (hx a (by simp))
    refine ⟨?_, ?_, ?_⟩
    · intro c hc
      simp only [List.map_cons, List.mem_cons] at hc
      rcases hc with rfl | hc
      · rw [e]; exact (h _).1
      · exact h1 c hc
    · intro c hc
      simp only [List.map_cons, List.mem_cons] at hc
      rcases hc with rfl | hc
      · rw [e]; exact hr
      · exact h2 c hc
    · simp only [List.map_cons, total_cons, List.sum_cons, e, Sc.val, Option.getD_some] at h3 ⊢
      linarith

theorem prods_within (hp : 1 ≤ F.p) (h : F.Rounds rn) {P κ yi : ℝ} (hκ : 1 ≤ κ) (hP : 0 ≤ P) : ∀ (x : List ℝ) (k : ℕ), (∀ a ∈ x, NoUnderflow F a yi) →
    (∀ i (hi : i < x.length), |x[i] * yi| ≤ P * (κ * F.u) ^ (k + i)) →
    Within ((1 + F.u) * P) (κ * F.u) k ((x.map fun xj => twoProd rn xj yi).map fun q => some q.1) ∧
    Within ((1 + F.u) * P) (κ * F.u) (k + 1) ((x.map fun xj => twoProd rn xj yi).map fun q => some q.2) := by
  have hu := u_pos (F := F)
  intro x
  induction x with
  | nil => intros; exact ⟨trivial, trivial⟩
  | cons a x ih =>
    intro k hx hb
    obtain ⟨h1, h2⟩ := ih (k + 1) (fun b hb' => hx b (by simp [hb'])) fun i hi => by
      have := hb (i + 1) (by simpa using hi)
      simp only [List.getElem_cons_succ] at this
      rwa [show k + 1 + i = k + (i + 1) by omega]
    have h0 := hb 0 (by simp)
    simp only [List.getElem_cons_zero, Nat.add_zero] at h0
    obtain ⟨b1, b2⟩ := twoProd_bounds hp h (hx a (by simp))
    have hpk : 0 ≤ (κ * F.u) ^ k := by positivity
    refine ⟨⟨b1.trans ?_, h1⟩, ⟨b2.trans ?_, h2⟩⟩
    · rw [mul_assoc]; exact mul_le_mul_of_nonneg_left h0 (by linarith)
    · refine (mul_le_mul_of_nonneg_left h0 hu.le).trans ?_
      rw [pow_succ]
      have h5 : F.u ≤ (1 + F.u) * (κ * F.u) := by
        have h6 : F.u ≤ κ * F.u := le_mul_of_one_le_left hu.le hκ
        have h7 : 0 ≤ F.u * (κ * F.u) := by positivity
        linarith
      calc F.u * (P * (κ * F.u) ^ k) ≤ ((1 + F.u) * (κ * F.u)) * (P * (κ * F.u) ^ k) := mul_le_mul_of_nonneg_right h5 (by positivity)
        _ = (1 + F.u) * P * ((κ * F.u) ^ k * (κ * F.u)) := by ring

theorem total_tail (l : List Sc) : (l.headD none).val + total l.tail = total l := by
  cases l <;> simp [Sc.val]

theorem tail_length {s : List Sc} {n : ℕ} (hl : s.length = n) (hn : 0 < n) : (s.tail ++ [none]).length = n := by
  simp only [List.length_append, List.length_tail, List.length_cons, List.length_nil]; omega

theorem mulRound_spec (h : F.Rounds rn) {x : List ℝ} {yi : ℝ} {s : List Sc} (hn : 0 < x.length) (hl : s.length = x.length)
    (hx : ∀ a ∈ x, NoUnderflow F a yi) (hs : ∀ a ∈ s, a.Ok F) :
    (mulRound rn x yi s).1.length = x.length ∧ (∀ a ∈ (mulRound rn x yi s).1, a.Ok F) ∧ (mulRound rn x yi s).2.1.Ok F ∧
      total (mulRound rn x yi s).1 + (mulRound rn x yi s).2.1.val + total (mulRound rn x yi s).2.2 = total s + x.sum * yi := by
  obtain ⟨q1, q2, q3⟩ := prods_spec h yi x hx
  simp only [mulRound]
  set pe := x.map fun xj => twoProd rn xj yi with hpe
  have hpl : pe.length = x.length := by simp [hpe]
  obtain ⟨l1, l2⟩ := addPlaces_length (rn := rn) s (pe.map fun q => some q.1) (by simp [hpl, hl])
  obtain ⟨p1, p2, p3⟩ := addPlaces_spec h s (pe.map fun q => some q.1) (by simp [hpl, hl]) hs q1
  set r := addPlaces rn s (pe.map fun q => some q.1) with hr
  have t1 : (r.1.tail ++ [none]).length = x.length := tail_length (l1.trans hl) hn
  have t2 : ∀ a ∈ r.1.tail ++ [none], a.Ok F := by
    intro a ha
    rw [List.mem_append] at ha
    rcases ha with ha | ha
    · exact p1 a (List.mem_of_mem_tail ha)
    · rw [List.mem_singleton.mp ha]; exact Sc.ok_none
  have e1 : (r.1.tail ++ [none]).length = (pe.map fun q => some q.2).length := by rw [t1, List.length_map, hpl]
  obtain ⟨d1, d2⟩ := drain_spec h x.length _ _ [] e1 t2 q2
  obtain ⟨d3, _⟩ := drain_length (rn := rn) x.length _ _ [] e1
  have d4 := drain_done (rn := rn) x.length 0 _ _ [] e1 (by simp [hpl]) (by simp)
  set D1 := drain rn x.length (r.1.tail ++ [none]) (pe.map fun q => some q.2) [] with hD1
  have e2 : D1.1.length = r.2.length := by rw [d3, t1, l2, hl]
  obtain ⟨f1, f2⟩ := drain_spec h x.length _ _ [] e2 d1 p2
  obtain ⟨f3, _⟩ := drain_length (rn := rn) x.length _ _ [] e2
  have f4 := drain_done (rn := rn) x.length 0 _ _ [] e2 (by rw [l2, hl]; omega) (by simp)
  refine ⟨by rw [f3, d3, t1], f1, ?_, ?_⟩
  · have hne : r.1 ≠ [] := by
      intro h0
      rw [h0] at l1
      simp only [List.length_nil] at l1
      omega
    obtain ⟨c, m, hc⟩ := List.exists_cons_of_ne_nil hne
    rw [hc] at p1 ⊢
    exact p1 c (by simp)
  · rw [total_none d4] at d2
    rw [total_none f4] at f2
    have ht := total_tail r.1
    rw [total_append] at d2 ⊢
    simp only [total_nil, total_cons, Sc.val, Option.getD_none] at d2 f2 ht ⊢
    linarith

theorem mulRound_within (hp : 1 ≤ F.p) (h : F.Rounds rn) {x : List ℝ} {yi : ℝ} {s : List Sc} {P κ : ℝ} {N m k : ℕ} (hn : 0 < x.length)
    (hl : s.length = x.length) (hx : ∀ a ∈ x, NoUnderflow F a yi) (hs : ∀ a ∈ s, a.Ok F) (hP : 0 ≤ P) (hκ : 1 + grow F N ≤ κ)
    (hm : m + (2 * x.length + 1) ≤ N) (hb : ∀ i (hi : i < x.length), |x[i] * yi| ≤ P * (κ * F.u) ^ (k + i))
    (ws : Within (grow F m * ((1 + F.u) * P)) (κ * F.u) k s) :
    Within (grow F (m + (2 * x.length + 1)) * ((1 + F.u) * P)) (κ * F.u) (k + 1) (mulRound rn x yi s).1 ∧
      (∀ a ∈ (mulRound rn x yi s).2.2, |a.val| ≤ (1 + F.u) * P * (κ * F.u) ^ (k + 1 + x.length)) ∧
      (mulRound rn x yi s).2.2.length ≤ 2 * x.length := by
  have hu := u_pos (F := F)
  have hκ1 : 1 ≤ κ := le_trans (by have := grow_nonneg (F := F) N; linarith) hκ
  have hκu : 0 ≤ κ * F.u := by positivity
  have hB : 0 ≤ (1 + F.u) * P := by positivity
  obtain ⟨q1, q2, q3⟩ := prods_spec h yi x hx
  obtain ⟨w1, w2⟩ := prods_within hp h hκ1 hP x k hx hb
  simp only [mulRound]
  set pe := x.map fun xj => twoProd rn xj yi with hpe
  have hpl : pe.length = x.length := by simp [hpe]
  obtain ⟨l1, l2⟩ := addPlaces_length (rn := rn) s (pe.map fun q => some q.1) (by simp [hpl, hl])
  obtain ⟨p1, p2, p3⟩ := addPlaces_spec h s (pe.map fun q => some q.1) (by simp [hpl, hl]) hs q1
  have hκ' : grow F m * ((1 + F.u) * P) + (1 + F.u) * P ≤ κ * ((1 + F.u) * P) := by
    have : grow F m ≤ grow F N := grow_mono (by omega)
    have h2 : (grow F m + 1) * ((1 + F.u) * P) ≤ κ * ((1 + F.u) * P) := mul_le_mul_of_nonneg_right (by linarith) hB
    linarith
  obtain ⟨a1, a2⟩ := addPlaces_within hp h hκ' (by linarith) s (pe.map fun q => some q.1) k hs q1 ws w1
  set r := addPlaces rn s (pe.map fun q => some q.1) with hr
  have t1 : (r.1.tail ++ [none]).length = x.length := tail_length (l1.trans hl) hn
  have t2 : ∀ a ∈ r.1.tail ++ [none], a.Ok F := by
    intro a ha
    rw [List.mem_append] at ha
    rcases ha with ha | ha
    · exact p1 a (List.mem_of_mem_tail ha)
    · rw [List.mem_singleton.mp ha]; exact Sc.ok_none
  have t3 : Within (grow F (m + 1) * ((1 + F.u) * P)) (κ * F.u) (k + 1) (r.1.tail ++ [none]) := by
    refine Within.snoc (mul_nonneg (grow_nonneg _) hB) hκu ?_
    rw [← List.drop_one]
    exact (a1.mono hκu (grow_step hB m)).drop 1
  have e1 : (r.1.tail ++ [none]).length = (pe.map fun q => some q.2).length := by rw [t1, List.length_map, hpl]
  obtain ⟨d1, d2⟩ := drain_spec h x.length _ _ [] e1 t2 q2
  obtain ⟨d3, _⟩ := drain_length (rn := rn) x.length _ _ [] e1
  obtain ⟨g1, g2, g3⟩ := drain_within hp h hB hκ (k + 1) x.length x.length _ _ [] (m + 1) (by omega) t1 (by rw [← e1, t1]) t2 q2 t3 w2 (by simp)
  set D1 := drain rn x.length (r.1.tail ++ [none]) (pe.map fun q => some q.2) [] with hD1
  have e2 : D1.1.length = x.length := by rw [d3, t1]
  obtain ⟨i1, i2, i3⟩ := drain_within hp h hB hκ (k + 1) x.length x.length _ r.2 [] (m + 1 + x.length) (by omega) e2 (by rw [l2, hl]) d1 p2 g1 a2 (by simp)
  refine ⟨by rwa [show m + 1 + x.length + x.length = m + (2 * x.length + 1) by omega] at i1, ?_, ?_⟩
  · intro a ha
    rw [List.mem_append] at ha
    exact ha.elim (g2 a) (i2 a)
  · simp only [List.length_append, List.length_nil] at g3 i3 ⊢
    omega

theorem mulRounds_spec (h : F.Rounds rn) {x : List ℝ} (hn : 0 < x.length) : ∀ (y : List ℝ) (s : List Sc), s.length = x.length →
    (∀ b ∈ y, ∀ a ∈ x, NoUnderflow F a b) → (∀ a ∈ s, a.Ok F) →
    (mulRounds rn x y s).1.length = x.length ∧ (∀ a ∈ (mulRounds rn x y s).2.1, a.Ok F) ∧ (mulRounds rn x y s).2.1.length = y.length ∧
      total (mulRounds rn x y s).1 + total (mulRounds rn x y s).2.1 + total (mulRounds rn x y s).2.2 = total s + x.sum * y.sum := by
  intro y
  induction y with
  | nil => intro s hl _ _; simp [mulRounds, hl]
  | cons b y ih =>
    intro s hl hx hs
    obtain ⟨r1, r2, r3, r4⟩ := mulRound_spec h hn hl (hx b (by simp)) hs
    obtain ⟨h1, h2, h3, h4⟩ := ih (mulRound rn x b s).1 r1 (fun c hc => hx c (by simp [hc])) r2
    refine ⟨h1, ?_, ?_, ?_⟩
    · intro a ha
      simp only [mulRounds, List.mem_cons] at ha
      rcases ha with rfl | ha
      · exact r3
      · exact h2 a ha
    · simp only [mulRounds, List.length_cons, h3]
    · simp only [mulRounds, total_cons, total_append, List.sum_cons]
      linarith

theorem mulRounds_within (hp : 1 ≤ F.p) (h : F.Rounds rn) {x : List ℝ} {P κ : ℝ} {N : ℕ} (hn : 0 < x.length) (hP : 0 ≤ P)
    (hκ : 1 + grow F N ≤ κ) (hρ : κ * F.u ≤ 1) : ∀ (y : List ℝ) (s : List Sc) (m k : ℕ), s.length = x.length →
    (∀ b ∈ y, ∀ a ∈ x, NoUnderflow F a b) → (∀ a ∈ s, a.Ok F) → m + y.length * (2 * x.length + 1) ≤ N →
    (∀ i (hi : i < x.length) j (hj : j < y.length), |x[i] * y[j]| ≤ P * (κ * F.u) ^ (k + j + i)) →
    Within (grow F m * ((1 + F.u) * P)) (κ * F.u) k s →
    Within (grow F N * ((1 + F.u) * P)) (κ * F.u) (k + y.length) (mulRounds rn x y s).1 ∧
      (∀ a ∈ (mulRounds rn x y s).2.2, |a.val| ≤ (1 + F.u) * P * (κ * F.u) ^ (k + 1 + x.length)) ∧
      (mulRounds rn x y s).2.2.length ≤ 2 * x.length * y.length := by
  have hu := u_pos (F := F)
  have hκ1 : 1 ≤ κ := le_trans (by have := grow_nonneg (F := F) N; linarith) hκ
  have hκu : 0 ≤ κ * F.u := by positivity
  have hB : 0 ≤ (1 + F.u) * P := by positivity
  intro y
  induction y with
  | nil =>
    intro s m k _ _ _ hm _ ws
    exact ⟨ws.mono hκu (mul_le_mul_of_nonneg_right (grow_mono (by simpa using hm)) hB), by simp [mulRounds], by simp [mulRounds]⟩
  | cons b y ih =>
    intro s m k hl hx hs hm hb ws
    have hm' : m + (2 * x.length + 1) + y.length * (2 * x.length + 1) ≤ N := by
      rw [List.length_cons, Nat.add_mul, Nat.one_mul] at hm
      omega
    obtain ⟨r1, r2, r3, r4⟩ := mulRound_spec h hn hl (hx b (by simp)) hs
    obtain ⟨w1, w2, w3⟩ := mulRound_within hp h hn hl (hx b (by simp)) hs hP hκ
      ((Nat.le_add_right _ _).trans hm') (fun i hi => hb i hi 0 (by simp)) ws
    obtain ⟨h1, h2, h3⟩ := ih (mulRound rn x b s).1 (m + (2 * x.length + 1)) (k + 1) r1 (fun c hc => hx c (by simp [hc])) r2 hm'
      (fun i hi j hj => by
        have := hb i hi (j + 1) (by simpa using hj)
        simp only [List.getElem_cons_succ] at this
        rwa [show k + 1 + j + i = k + (j + 1) + i by omega]) w1
    refine ⟨by rwa [show k + 1 + y.length = k + (y.length + 1) by omega] at h1, ?_, ?_⟩
    · intro a ha
      simp only [mulRounds, List.mem_append] at ha
      rcases ha with ha | ha
      · exact w2 a ha
      · exact (h2 a ha).trans (mul_le_mul_of_nonneg_left (pow_le_pow_of_le_one hκu hρ (by omega)) hB)
    · simp only [mulRounds, List.length_append, List.length_cons]
      rw [Nat.mul_add, Nat.mul_one]
      omega

end Mandelbrot.Float
