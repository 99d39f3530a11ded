import Verif.Sym.FFTTotal
import Verif.Sym.MulBase
import Verif.Props.FFTGen
import Verif.Props.Gradient

/-!
# The transposed butterflies on expressions
-/

namespace Mandelbrot.Sym

open Sig (Sg)
open Spec

section
variable {C : Cfg} {S : Seeds} {ρ : Interp ℂ} {tw : ℤ → ℂ} {r : ℕ}

/-! ## Sums over the inputs and the outputs -/

theorem flatten_length (l : List CEx) : (flatten l).length = 2 * l.length := by
  induction l with
  | nil => rfl
  | cons z l ih => show (z.re :: z.im :: flatten l).length = _; simp [ih]; omega

theorem thicken_flatten : ∀ (l : List Ex) {z : List CEx}, thicken l = .ok z → l = flatten z
  | [], z, h => by cases h; rfl
  | [_], z, h => by cases h
  | a :: b :: l, z, h => by
    unfold thicken at h
    obtain ⟨w, e, h⟩ := Ser.bind_eq_ok h
    cases h
    rw [thicken_flatten l e]
    rfl

theorem flat_sum (d : CEx) : ∀ (l l' : List CEx), l.length = l'.length →
    (((flatten l).zip (flatten l')).map fun p => p.1.val ρ * p.2.val ρ).sum =
      ∑ i ∈ Finset.range l.length, ((l.getD i d).re.val ρ * (l'.getD i d).re.val ρ + (l.getD i d).im.val ρ * (l'.getD i d).im.val ρ)
  | [], [], _ => rfl
  | z :: l, w :: l', h => by
    have ih := flat_sum d l l' (by simpa using h)
    rw [List.length_cons, Finset.sum_range_succ']
    show z.re.val ρ * w.re.val ρ + (z.im.val ρ * w.im.val ρ + (((flatten l).zip (flatten l')).map fun p => p.1.val ρ * p.2.val ρ).sum) = _
    rw [ih]
    simp only [List.getD_cons_succ, List.getD_cons_zero]
    ring

theorem real_sum (d : Ex) : ∀ (l l' : List Ex), l.length = l'.length →
    ((l.zip l').map fun p => p.1.val ρ * p.2.val ρ).sum = ∑ i ∈ Finset.range l.length, (l.getD i d).val ρ * (l'.getD i d).val ρ
  | [], [], _ => rfl
  | z :: l, w :: l', h => by
    have ih := real_sum d l l' (by simpa using h)
    rw [List.length_cons, Finset.sum_range_succ']
    show z.val ρ * w.val ρ + ((l.zip l').map fun p => p.1.val ρ * p.2.val ρ).sum = _
    rw [ih]
    simp only [List.getD_cons_succ, List.getD_cons_zero]
    ring

theorem isL_of_get {D : List String} : ∀ (l : List CEx) (v : ℕ → ℂ), (∀ i (h : i < l.length), IsC ρ D l[i] (v i)) → IsL ρ D l v := by
  intro l
  induction l with
  | nil => intro v _; trivial
  | cons z l ih => exact fun v h => ⟨h 0 (by simp), ih _ fun i hi => h (i + 1) (by simpa using hi)⟩

theorem isRL_of_get {D : List String} : ∀ (l : List Ex) (v : ℕ → ℝ), (∀ i (h : i < l.length), IsR ρ D l[i] (v i)) → IsRL ρ D l v := by
  intro l
  induction l with
  | nil => intro v _; trivial
  | cons z l ih => exact fun v h => ⟨h 0 (by simp), ih _ fun i hi => h (i + 1) (by simpa using hi)⟩

theorem isRL_get {D : List String} : ∀ (l : List Ex) (v : ℕ → ℝ), IsRL ρ D l v → ∀ i (h : i < l.length), IsR ρ D l[i] (v i) := by
  intro l
  induction l with
  | nil => intro v _ i h; simp at h
  | cons z l ih =>
    intro v hz i h
    cases i with
    | zero => exact hz.1
    | succ i => exact ih _ hz.2 i (by simpa using h)

theorem isL_getD {D : List String} {l : List CEx} {v : ℕ → ℂ} (h : IsL ρ D l v) (d : CEx) {i : ℕ} (hi : i < l.length) : IsC ρ D (l.getD i d) (v i) := by
  rw [List.getD_eq_getElem _ _ hi]
  exact isL_get l v h i hi

/-- The pairing of two lists of complex numbers. -/
theorem flat_sum_val {D : List String} {l l' : List CEx} {v w : ℕ → ℂ} (h : IsL ρ D l v) (h' : IsL ρ D l' w) (hl : l.length = l'.length) :
    (((flatten l).zip (flatten l')).map fun p => p.1.val ρ * p.2.val ρ).sum =
      ((∑ k ∈ Finset.range l.length, ((v k).re * (w k).re + (v k).im * (w k).im) : ℝ) : ℂ) := by
  rw [flat_sum ⟨.int 0, .int 0⟩ l l' hl]
  push_cast
  refine Finset.sum_congr rfl fun i hi => ?_
  have hi := Finset.mem_range.mp hi
  have a := isL_getD h ⟨.int 0, .int 0⟩ hi
  have b := isL_getD h' ⟨.int 0, .int 0⟩ (hl ▸ hi)
  rw [a.1.2, a.2.2, b.1.2, b.2.2]

/-! ## Probing with unit vectors -/

/-- The names of the inputs have the values of a unit vector. -/
noncomputable def probe (n k : ℕ) (w : ℂ) (env : String → ℂ) : String → ℂ :=
  fun v => if v = "px" ++ toString k then w else if v ∈ numbered "px" n then 0 else env v

theorem probe_px {n k : ℕ} {w : ℂ} {env : String → ℂ} {i : ℕ} (hi : i < n) : probe n k w env ("px" ++ toString i) = FFT.unit k w i := by
  unfold probe FFT.unit
  by_cases h : i = k
  · subst h; simp
  · have h1 : ("px" ++ toString i : String) ≠ "px" ++ toString k := fun e => h (by
      have e := congrArg String.toList e
      rw [String.toList_append, String.toList_append] at e
      exact toString_inj (String.toList_inj.mp (List.append_cancel_left e)))
    rw [if_neg h1, if_neg h, if_pos]
    simp only [numbered, List.mem_map, List.mem_range]
    exact ⟨i, hi, rfl⟩

theorem probe_other {n k : ℕ} {w : ℂ} {env : String → ℂ} (hk : k < n) {v : String} (hv : v ∉ numbered "px" n) : probe n k w env v = env v := by
  unfold probe
  rw [if_neg, if_neg hv]
  rintro rfl
  exact hv (by simp only [numbered, List.mem_map, List.mem_range]; exact ⟨k, hk, rfl⟩)

theorem head_px {n : ℕ} {v : String} (h : v.toList.head? ≠ some 'p') : v ∉ numbered "px" n := by
  intro hv
  simp only [numbered, List.mem_map, List.mem_range] at hv
  obtain ⟨i, -, rfl⟩ := hv
  rw [String.toList_append] at h
  exact h rfl

theorem y_px (n i : ℕ) : ("y" ++ toString i : String) ∉ numbered "px" n := head_px (by rw [String.toList_append]; simp)

theorem p_px (n : ℕ) : "p" ∉ numbered "px" n := by
  intro hv
  simp only [numbered, List.mem_map, List.mem_range] at hv
  obtain ⟨i, -, h⟩ := hv
  have h := congrArg String.toList h
  rw [String.toList_append] at h
  simp at h

/-! ## The gradient -/

section
variable {D : List String}

theorem in_args {z a : Ex} (h : In D z) (ha : a ∈ z.args) : In D a := by
  cases z <;> simp only [Ex.args, List.mem_cons, List.not_mem_nil, or_false] at ha
  all_goals first
    | (subst ha; exact fun v hv => h v (by simpa [Ex.vars] using hv))
    | (rcases ha with rfl | rfl <;> exact fun v hv => h v (by simp [Ex.vars, hv]))
    | (rcases ha with rfl | rfl | rfl <;> exact fun v hv => h v (by simp [Ex.vars, hv]))

theorem in_grad {u z d : Ex} (hu : In D u) (h : In D z) (hd : d ∈ z.grad u) : In D d := by
  cases z <;> simp only [Ex.grad, List.mem_cons, List.not_mem_nil, or_false, or_self] at hd
  all_goals first
    | (subst hd; first | exact hu | exact in_int _)
    | (rcases hd with rfl | rfl <;> first | exact in_int _ | exact fun v hv => h v (by simp [Ex.vars, hv]))

theorem gradArgs_in {dz : Ex} (hdz : In D dz) : ∀ (l : List (Ex × Ex)) (g : GS) (st : CSt) {r : GS × CSt}, gradArgs C dz l g st = .ok r →
    (∀ p ∈ l, In D p.1 ∧ In D p.2) → (∀ e ∈ g.work, In D e) → (∀ s, ∀ e ∈ g.terms s, In D e) → st.All (In D) →
    (∀ e ∈ r.1.work, In D e) ∧ (∀ s, ∀ e ∈ r.1.terms s, In D e) ∧ r.2.All (In D) := by
  intro l
  induction l with
  | nil => intro g st r h _ hw ht hs; cases h; exact ⟨hw, ht, hs⟩
  | cons p l ih =>
    obtain ⟨a, d⟩ := p
    intro g st r h hl hw ht hs
    simp only [gradArgs] at h
    cases hm : mul C d dz st with
    | error e => rw [hm] at h; simp at h
    | ok q =>
      obtain ⟨t, st1⟩ := q
      rw [hm] at h
      obtain ⟨ha, hd⟩ := hl (a, d) (by simp)
      obtain ⟨s1, t1⟩ := mul_all (in_closed D) hs hd hdz hm
      refine ih _ _ h (fun p hp => hl p (by simp [hp])) ?_ ?_ s1
      · intro e he
        simp only at he
        split_ifs at he
        · rcases List.mem_cons.mp he with rfl | he
          · exact ha
          · exact hw e he
        · exact hw e he
      · intro s e he
        simp only at he
        split_ifs at he
        · rcases List.mem_append.mp he with he | he
          · exact ht s e he
          · rw [List.mem_singleton.mp he]; exact t1
        · exact ht s e he

theorem gradLoop_in {u : Ex} (hu : In D u) : ∀ (f : ℕ) (g : GS) (st : CSt) {r : GS × CSt}, gradLoop C u f g st = some (.ok r) →
    (∀ e ∈ g.work, In D e) → (∀ s, ∀ e ∈ g.terms s, In D e) → st.All (In D) → ∀ s, ∀ e ∈ r.1.terms s, In D e := by
  intro f
  induction f with
  | zero =>
    intro g st r h hw ht hs
    simp only [gradLoop] at h
    split at h
    · cases h; exact ht
    · simp at h
  | succ f ih =>
    intro g st r h hw ht hs
    simp only [gradLoop] at h
    split at h
    · cases h; exact ht
    · rename_i z w hzw
      have hz : In D z := hw z (by simp [hzw])
      cases hp : gradPop C u z { g with work := w } st with
      | error e => rw [hp] at h; simp at h
      | ok q =>
        rw [hp] at h
        unfold gradPop at hp
        cases hd : sum C (g.terms (z.sig C)) st with
        | error e => simp [hd] at hp
        | ok d =>
          obtain ⟨s1, d1⟩ := sum_all (in_closed D) _ (Nat.lt_succ_self _) hs (ht _) d hd
          simp only [hd, if_pos (grad_length u z)] at hp
          obtain ⟨k1, k2, k3⟩ := gradArgs_in d1 _ _ _ hp (fun p hp => ⟨in_args hz (List.of_mem_zip hp).1, in_grad hu hz (List.of_mem_zip hp).2⟩)
            (fun e he => hw e (by rw [hzw]; exact List.mem_cons_of_mem _ he)) (fun s e he => by
              simp only at he
              split_ifs at he
              · rw [List.mem_singleton.mp he]; exact d1
              · exact ht s e he) s1
          exact ih _ _ h k1 k2 k3

theorem seed_in : ∀ (l : List (Ex × Ex)) (t : Sg → List Ex), (∀ p ∈ l, In D p.2) → (∀ s, ∀ e ∈ t s, In D e) →
    ∀ s, ∀ e ∈ seed C l t s, In D e := by
  intro l
  induction l with
  | nil => intro t _ ht; exact ht
  | cons p l ih =>
    obtain ⟨y, d⟩ := p
    intro t hl ht
    refine ih _ (fun p hp => hl p (by simp [hp])) fun s e he => ?_
    split_ifs at he
    · rcases List.mem_append.mp he with he | he
      · exact ht s e he
      · rw [List.mem_singleton.mp he]; exact hl (y, d) (by simp)
    · exact ht s e he

theorem readOff_in {g : GS} (h : ∀ s, ∀ e ∈ g.terms s, In D e) : ∀ {xs : List Ex} {r : List Ex}, readOff C g xs = .ok r → ∀ e ∈ r, In D e := by
  intro xs
  induction xs with
  | nil => intro r e; cases e; simp
  | cons x xs ih =>
    intro r e
    unfold readOff at e
    obtain ⟨-, -, e⟩ := Ser.bind_eq_ok e
    obtain ⟨r', e', e⟩ := Ser.bind_eq_ok e
    cases e
    intro a ha
    rcases List.mem_cons.mp ha with rfl | ha
    · cases ht : g.terms (x.sig C) with
      | nil => exact in_int 0
      | cons t l => exact h _ _ (by rw [ht]; simp)
    · exact ih e' a ha

/-- The names in what `gradient` returns are those of the outputs and the differentials, and `unknown`. -/
theorem gradientX_in {xs ys dys : List Ex} {st : CSt} {g : List Ex × CSt} (h : gradientX C S xs ys dys st = .ok g) (hu : "unknown" ∈ D)
    (hy : ∀ e ∈ ys, In D e) (hd : ∀ e ∈ dys, In D e) (hs : st.All (In D)) : ∀ e ∈ g.1, In D e := by
  unfold gradientX at h
  split at h
  · cases h
  · rename_i r hr
    subst h
    unfold gradient at hr
    split at hr
    · cases hr
    · split at hr
      · cases hr
      · rename_i n hn
        split at hr
        · cases hr
        · cases hr
        · rename_i g' st' hg
          split at hr
          · cases hr
          · rename_i o ho
            cases hr
            refine readOff_in (gradLoop_in (in_name (S := S) hu) _ _ _ hg (fun e he => hy e (List.mem_reverse.mp he)) ?_ hs) ho
            exact seed_in _ _ (fun p hp => hd _ (List.of_mem_zip hp).2) (by simp)

end

/-- What `gradient` returns on a linear circuit. -/
theorem gradientX_sum (hC : C.Ok) (hS : S.Ok C) {xs : List Ex} {py y : List CEx} {st : CSt} {g : List Ex × CSt}
    (h : gradientX C S xs (flatten py) (flatten y) st = .ok g) (hc : Circuit C true xs (flatten py)) (hlin : ∀ e ∈ flatten py, Linear xs e)
    (hst : st.Good C) (hex : st.exact = true) (hok : st.Ok C) (hd : ∀ z ∈ y, GoodC C z) :
    g.1.length = xs.length ∧ py.length = y.length ∧ st.met ⊆ g.2.met ∧ ∀ ρ : Interp ℂ, NoClash C ρ g.2.met →
      ((xs.zip g.1).map fun p => p.1.val ρ * p.2.val ρ).sum = (((flatten py).zip (flatten y)).map fun p => p.1.val ρ * p.2.val ρ).sum := by
  have hlen : (flatten py).length = (flatten y).length := by
    by_contra hne
    unfold gradientX at h
    rw [C42_lengths hne] at h
    cases h
  have hu : Good C st.exact (S.name "unknown") := hex ▸ good_name hS _
  have hdy : ∀ d ∈ flatten y, Good C st.exact d := hex ▸ good_flatten hd
  rw [← hex] at hc
  have hx : ∀ x ∈ xs, ∃ y ∈ flatten py, x ∈ y.subs := by
    by_contra hne
    push Not at hne
    unfold gradientX at h
    rw [C42_unreached hC hc hne hu hdy hst hok hlen le_rfl] at h
    cases h
  obtain ⟨outs, st', h1, h2, h3⟩ := C42_transpose (R := ℂ) hC hc hx hu hdy hst hok hlin hlen le_rfl
  obtain ⟨outs', st'', k1, k2, k3, -⟩ := hc.run hC hu hdy hst hok hlen (anyInterp : Interp ℤ)
    (fun _ => (0 : ℤ)) hc.nodup (fun x => ⟨fun h => ⟨h, hx x h⟩, fun h => h.1⟩)
    (fuel := (flatten py).length + ((flatten py).flatMap Ex.subs).length) (Nat.add_le_add_left (List.toFinset_card_le _) _)
  rw [h1] at k1
  cases k1
  unfold gradientX at h
  rw [h1] at h
  cases h
  refine ⟨h2, ?_, k3, h3⟩
  rw [flatten_length, flatten_length] at hlen
  omega

theorem good_subs {b : Bool} {y : Ex} (h : Good C b y) : ∀ e ∈ y.subs, Good C b e := by
  induction y with
  | var v s => intro e he; rw [show e = _ by simpa [Ex.subs] using he]; exact h
  | int n => intro e he; rw [show e = _ by simpa [Ex.subs] using he]; exact h
  | other t p s => intro e he; rw [show e = _ by simpa [Ex.subs] using he]; exact h
  | field x f s ih | neg x s ih | div x n s ih | call1 f x s ih =>
    intro e he
    rcases mem_subs.mp he with rfl | he
    · exact h
    · first
        | exact ih ⟨h.1, fun hb => (h.2 hb).1⟩ e (by simpa [properSubs, Ex.subs] using he)
        | exact ih ⟨h.1.1, fun hb => (h.2 hb).1⟩ e (by simpa [properSubs, Ex.subs] using he)
  | add x y s ihx ihy | sub x y s ihx ihy | mul x y s ihx ihy | call2 f x y s ihx ihy =>
    intro e he
    rcases mem_subs.mp he with rfl | he
    · exact h
    · have he : e ∈ x.subs ∨ e ∈ y.subs := by simpa [properSubs, Ex.subs] using he
      rcases he with he | he
      · exact ihx ⟨h.1.1, fun hb => (h.2 hb).1⟩ e he
      · exact ihy ⟨h.1.2, fun hb => (h.2 hb).2.1⟩ e he
  | call3 f x y z s ihx ihy ihz =>
    intro e he
    rcases mem_subs.mp he with rfl | he
    · exact h
    · have he : e ∈ x.subs ∨ e ∈ y.subs ∨ e ∈ z.subs := by simpa [properSubs, Ex.subs] using he
      rcases he with he | he | he
      · exact ihx ⟨h.1.1, fun hb => (h.2 hb).1⟩ e he
      · exact ihy ⟨h.1.2.1, fun hb => (h.2 hb).2.1⟩ e he
      · exact ihz ⟨h.1.2.2, fun hb => (h.2 hb).2.2.1⟩ e he

/-! ## Remaining levels -/

theorem levelsBody_r {j : Ex} {y : List CEx} {st : CSt} {q} (h : levelsBodyX C S r j y st = .ok q) : r = 1 ∨ r = 2 ∨ r = 3 := by
  match r, h with
  | 1, _ => exact .inl rfl
  | 2, _ => exact .inr (.inl rfl)
  | 3, _ => exact .inr (.inr rfl)
  | 0, h => cases h
  | _ + 4, h => cases h

theorem isL_in {D : List String} {l : List CEx} {v : ℕ → ℂ} (h : IsL ρ D l v) : ∀ e ∈ flatten l, In D e := by
  intro e he
  obtain ⟨z, hz, he⟩ := List.mem_flatMap.mp he
  obtain ⟨i, hi, rfl⟩ := List.getElem_of_mem hz
  have := isL_get l v h i hi
  simp only [List.mem_cons, List.not_mem_nil, or_false] at he
  rcases he with rfl | rfl
  · exact this.1.1
  · exact this.2.1

/-- What the expressions of a transposed butterfly stand for. -/
theorem levels_back_parts (hC : C.Ok) (hS : S.Ok C) {q : (List Ex × List CEx × List Ex × List Ex) × CSt}
    (h : levelsX C S r false ⟨true, [], []⟩ = .ok q)
    (hm : Means S tw ρ) (hc : ∀ env, NoClash C (withVar ρ env) q.2.met) 
    (hcirc : (∀ y ∈ q.1.2.2.2, ∀ e ∈ y.subs, Good C true e) → Circuit C true q.1.2.2.1 q.1.2.2.2)
    (hlin : ∀ e ∈ q.1.2.2.2, Linear q.1.2.2.1 e) (hfree : ∀ e ∈ flatten q.1.2.1, ∀ v ∈ e.vars, v ≠ "unknown" ∧ v ∉ numbered "px" (2 ^ r))
    {env : String → ℂ} {a b c : ℕ} (ha : env "j0" = a) (hb : env "j1" = b)
    (hcc : env "m" = c) {ys : ℕ → ℂ} (hy : ∀ i < 2 ^ r, env ("y" ++ toString i) = ys i) :
    q.1.1.length = 2 ^ r ∧ q.1.2.1.length = 2 ^ r ∧
      (IsIL (withVar ρ env) ["j0", "j1", "m"] q.1.1 fun i => ((a + b : ℕ) : ℤ) + (i : ℕ) * (c : ℤ)) ∧
      IsL (withVar ρ env) (levelsNames r ++ numbered "y" (2 ^ r)) q.1.2.1 (FFT.transposeC (2 ^ r) (FFT.butterflyR r b tw) ys) := by
  unfold levelsX at h
  obtain ⟨jx, e1, h⟩ := gen_bind h
  obtain ⟨ks, e2, h⟩ := gen_bind h
  obtain ⟨px, e3, h⟩ := gen_bind h
  obtain ⟨py, e4, h⟩ := gen_bind h
  obtain ⟨y, e5, h⟩ := gen_bind h
  obtain ⟨g, e6, h⟩ := gen_bind h
  obtain ⟨z, e7, h⟩ := gen_bind h
  obtain ⟨u, e8, h⟩ := gen_bind h
  obtain ⟨ez, ez'⟩ : thicken g.1 = .ok z.1 ∧ z.2 = g.2 := by
    cases ht : thicken g.1 with
    | error e => rw [ht] at e7; cases e7
    | ok w => rw [ht] at e7; cases e7; exact ⟨rfl, rfl⟩
  obtain ⟨-, eu⟩ : True ∧ u.2 = z.2 := by
    by_cases hp : z.1.length = ks.1.length
    · rw [slowAssert_true hp] at e8; cases e8; exact ⟨trivial, rfl⟩
    · simp only [slowAssert, hp, if_false] at e8; cases e8
  cases h
  simp only at hcirc hlin hfree hc ⊢
  rw [eu, ez'] at hc
  have hr := levelsBody_r e4
  -- growth
  have g1 := grows_add (C := C) (S.name "j0") (S.name "j1") _ _ empty_ok e1
  have g2 := grows_locsX (C := C) jx.1 (S.name "m") _ _ _ _ g1.1 e2
  have g3 := grows_splitAll (C := C) _ _ _ g2.1 e3
  have g4 := grows_levelsBodyX (C := C) _ _ _ _ _ g3.1 e4
  have g5 := grows_splitAll (C := C) _ _ _ g4.1 e5
  -- good
  have b0 : CSt.Good C ⟨true, [], []⟩ := fun p hp => by simp at hp
  have hpow : 2 ^ r ≤ 2 ^ 31 := Nat.pow_le_pow_right (by norm_num) (by omega)
  have b1 := (runs_add hC (good_name hS "j0") (good_name hS "j1")).result b0 rfl e1
  have b2 := (runs_locsX hC b1.2.2 (good_name hS "m") _ 0 (by omega)).result b1.1 b1.2.1 e2
  have b3 := (runs_splitAll hC _ (good_names hS (numbered "px" (2 ^ r)))).result b2.1 b2.2.1 e3
  have lpx : px.1.length = 2 ^ r := by rw [b3.2.2.1]; simp [numbered]
  have b4 := (runs_levelsBodyX hC hS hr (good_name hS "j1") lpx b3.2.2.2).result b3.1 b3.2.1 e4
  have b5 := (runs_splitAll hC _ (good_names hS (numbered "y" (2 ^ r)))).result b4.1 b4.2.1 e5
  have ly : y.1.length = 2 ^ r := by rw [b5.2.2.1]; simp [numbered]
  obtain ⟨lg, lpy, hmet, hsum⟩ := gradientX_sum hC hS e6 (hcirc fun y hy => good_subs (good_flatten b4.2.2.2 y hy)) hlin b5.1 b5.2.1 g5.1 b5.2.2.2
  have hgz := thicken_flatten _ ez
  have lz : z.1.length = 2 ^ r := by
    rw [hgz, flatten_length, flatten_length] at lg
    omega
  have hM5 : y.2.met ⊆ g.2.met := hmet
  have hM4 : py.2.met ⊆ g.2.met := fun x hx => hM5 (g5.2 hx)
  have hM3 : px.2.met ⊆ g.2.met := fun x hx => hM4 (g4.2 hx)
  have hM2 : ks.2.met ⊆ g.2.met := fun x hx => hM3 (g3.2 hx)
  obtain ⟨a2, l2, q2⟩ := levels_cells (r := r) (hc env) ha hb hcc e1 e2 hM2
  refine ⟨l2, lz, q2, ?_⟩
  -- one unit vector
  obtain ⟨D, hD⟩ : ∃ D, D = levelsNames r ++ numbered "y" (2 ^ r) ++ (numbered "px" (2 ^ r) ++ ["unknown"]) := ⟨_, rfl⟩
  have hDn : ∀ v ∈ levelsNames r ++ numbered "y" (2 ^ r), v ∈ D := fun v hv => hD ▸ List.mem_append_left _ hv
  have hone : ∀ (k : ℕ) (w : ℂ), k < 2 ^ r → ((((flatten px.1).zip (flatten z.1)).map fun p =>
      p.1.val (withVar ρ (probe (2 ^ r) k w env)) * p.2.val (withVar ρ (probe (2 ^ r) k w env))).sum = ((∑ l ∈ Finset.range (2 ^ r),
        ((FFT.butterflyR r b tw (FFT.unit k w) l).re * (ys l).re + (FFT.butterflyR r b tw (FFT.unit k w) l).im * (ys l).im) : ℝ) : ℂ)) ∧
      IsL (withVar ρ (probe (2 ^ r) k w env)) D px.1 (FFT.unit k w) ∧ ∀ e ∈ g.1, In D e := by
    intro k w hk
    obtain ⟨env', he'⟩ : ∃ env', env' = probe (2 ^ r) k w env := ⟨_, rfl⟩
    have ho : ∀ v, v ∉ numbered "px" (2 ^ r) → env' v = env v := fun v hv => by rw [he', probe_other hk hv]
    have hb' : env' "j1" = b := by rw [ho _ (head_px (by decide)), hb]
    have hpx : ∀ i < 2 ^ r, env' ("px" ++ toString i) = FFT.unit k w i := fun i hi => by rw [he', probe_px hi]
    have hy' : ∀ i < 2 ^ r, env' ("y" ++ toString i) = ys i := fun i hi => by rw [ho _ (y_px _ i), hy i hi]
    rw [← he']
    obtain ⟨a3, l3, q3⟩ := split_names (M := g.2.met) (D := D) hm (hc env') hpx (fun v hv => hD ▸ List.mem_append_right _ (List.mem_append_left _ hv)) _ _ g2.1
      (all_mono a2 fun v hv => hDn v (names_sub r v hv)) e3 hM3
    obtain ⟨a4, l4, q4⟩ := does_levelsBodyX (M := g.2.met) (D := D) (hm.withVar env') (hc env') (isI_name env' (hDn _ (names_sub r _ (by simp))) hb') q3
      _ _ g3.1 a3 e4 hM4
    obtain ⟨a5, l5, q5⟩ := split_names (M := g.2.met) (D := D) hm (hc env') hy' (fun v hv => hDn v (List.mem_append_right _ hv)) _ _ g4.1
      a4 e5 hM5
    refine ⟨?_, q3, gradientX_in e6 (by simp [hD]) (isL_in q4) (isL_in q5) a5⟩
    rw [← hgz, hsum _ (hc env'), flat_sum_val q4 q5 lpy, lpy, ly]
  have hin : ∀ e ∈ flatten z.1, In (levelsNames r ++ numbered "y" (2 ^ r)) e := by
    intro e he v hv
    have h1 := (hone 0 0 (Nat.two_pow_pos r)).2.2 e (hgz ▸ he) v hv
    have h2 := hfree e he v hv
    rw [hD, List.mem_append, List.mem_append (s := numbered "px" _), List.mem_singleton] at h1
    rcases h1 with h1 | h1 | h1
    · exact h1
    · exact absurd h1 h2.2
    · exact absurd h1 h2.1
  refine isL_of_get _ _ fun k hk => ?_
  have hk' : k < 2 ^ r := by omega
  have hzk : z.1.getD k ⟨.int 0, .int 0⟩ = z.1[k] := List.getD_eq_getElem _ _ hk
  have hre : In (levelsNames r ++ numbered "y" (2 ^ r)) (z.1[k]).re := hin _ (List.mem_flatMap.mpr ⟨_, List.getElem_mem hk, by simp⟩)
  have him : In (levelsNames r ++ numbered "y" (2 ^ r)) (z.1[k]).im := hin _ (List.mem_flatMap.mpr ⟨_, List.getElem_mem hk, by simp⟩)
  have hfree : ∀ v ∈ levelsNames r ++ numbered "y" (2 ^ r), v ∉ numbered "px" (2 ^ r) := by
    intro v hv
    refine head_px ?_
    rcases List.mem_append.mp hv with hv | hv
    · simp only [levelsNames, List.mem_cons, List.not_mem_nil, or_false] at hv
      rcases hv with rfl | rfl | rfl | rfl | rfl | rfl | rfl | rfl | rfl
      on_goal 4 => rw [String.toList_append]; simp
      all_goals decide
    · simp only [numbered, List.mem_map] at hv
      obtain ⟨i, -, rfl⟩ := hv
      rw [String.toList_append]; simp
  have hval : ∀ (w : ℂ) (e : Ex), In (levelsNames r ++ numbered "y" (2 ^ r)) e →
      e.val (withVar ρ (probe (2 ^ r) k w env)) = e.val (withVar ρ env) := fun w e he =>
    val_congr ρ _ fun v hv => probe_other hk' (hfree v (he v hv))
  have hpick : ∀ w : ℂ, (((flatten px.1).zip (flatten z.1)).map fun p =>
      p.1.val (withVar ρ (probe (2 ^ r) k w env)) * p.2.val (withVar ρ (probe (2 ^ r) k w env))).sum =
      (w.re : ℂ) * (z.1[k]).re.val (withVar ρ env) + (w.im : ℂ) * (z.1[k]).im.val (withVar ρ env) := by
    intro w
    have hp := (hone k w hk').2.1
    rw [flat_sum ⟨.int 0, .int 0⟩ _ _ (lpx.trans lz.symm), Finset.sum_eq_single k, hzk, hval w _ hre, hval w _ him]
    · have := isL_getD hp ⟨.int 0, .int 0⟩ (i := k) (by omega)
      rw [this.1.2, this.2.2]
      simp [FFT.unit]
    · intro i hi hik
      have := isL_getD hp ⟨.int 0, .int 0⟩ (i := i) (Finset.mem_range.mp hi)
      rw [this.1.2, this.2.2]
      simp [FFT.unit, hik]
    · intro hn
      exact absurd (Finset.mem_range.mpr (by omega)) hn
  refine ⟨⟨hre, ?_⟩, him, ?_⟩
  · have := hpick 1
    rw [(hone k 1 hk').1] at this
    simpa [FFT.transposeC] using this.symm
  · have := hpick Complex.I
    rw [(hone k Complex.I hk').1] at this
    simpa [FFT.transposeC] using this.symm

/-! ## Writes to the real cells -/

/-- Writes to the real cells. -/
def putsX (xn : ℕ) (add : Bool) : List (ℕ × ℝ) → (ℕ → ℝ) → (ℕ → ℝ)
  | [], x => x
  | p :: l, x => putsX xn add l (if p.1 < xn then Function.update x p.1 (if add then x p.1 + p.2 else p.2) else x)

theorem putOf_spec {add : Bool} {x : Ex} {o : Put × Ex} (h : putOf add x = .ok o) (hn : ∀ n : ℤ, x = .int n → 0 ≤ n) :
    (add = false ∧ o = (.set, x)) ∨ (add = true ∧ o = (.add, x)) ∨ (add = true ∧ ∃ nx s, x = .neg nx s ∧ o = (.sub, nx)) := by
  unfold putOf at h
  cases add with
  | false => cases h; exact .inl ⟨rfl, rfl⟩
  | true =>
    simp only [if_true] at h
    obtain ⟨n, e, h'⟩ := Ser.bind_eq_ok h
    clear h
    revert hn e h'
    cases x <;> intro hn e h
    case int k =>
      have hk := hn k rfl
      simp only [Ex.unneg, if_neg (not_lt.mpr hk)] at e
      cases e; cases h
      exact .inr (.inl ⟨rfl, rfl⟩)
    case neg nx s =>
      cases e; cases h
      exact .inr (.inr ⟨rfl, nx, s, rfl, rfl⟩)
    all_goals
      cases e; cases h
      exact .inr (.inl ⟨rfl, rfl⟩)

theorem storesX_step {xn : ℕ} {add : Bool} {U : Ex → Prop} (hU : ∀ e e', U e → U e' → e.sig C = e'.sig C → e.val ρ = e'.val ρ) :
    ∀ (l : List (Ex × Ex)) {B : Blk} {r : List FLine × Blk}, Inv C ρ U B →
      (∀ p ∈ l, ∀ e ∈ p.2.subs, U e) → (∀ p ∈ l, ∀ n : ℤ, p.2 = .int n → 0 ≤ n) →
      (∀ p ∈ l, (∀ v ∈ p.1.vars, v ∈ inputs B.code) ∧ ∀ v ∈ p.2.vars, v ∈ inputs B.code) →
      storesX C add l B = .ok r →
      Compiles (declared B.code) r.1 ∧ ∀ env m, m.env = after ρ B.code env →
        (runLines ρ xn r.1 m).y = m.y ∧ (runLines ρ xn r.1 m).x =
          putsX xn add (l.map fun p => (index (p.1.val ρ), (p.2.val ρ).re)) m.x := by
  intro l
  induction l with
  | nil =>
    intro B r hi _ _ _ e
    cases e
    exact ⟨trivial, fun _ _ _ => ⟨rfl, rfl⟩⟩
  | cons p l ih =>
    intro B r hi hs hn hv e
    unfold storesX at e
    obtain ⟨o, ho, e⟩ := Ser.bind_eq_ok e
    obtain ⟨a, ha, e⟩ := Ser.bind_eq_ok e
    obtain ⟨q, hq, e⟩ := Ser.bind_eq_ok e
    cases e
    have ho' := putOf_spec ho (hn p (by simp))
    have s1 := hs p (by simp)
    obtain ⟨v0, v1⟩ := hv p (by simp)
    have so : (∀ e ∈ o.2.subs, U e) ∧ ∀ v ∈ o.2.vars, v ∈ inputs B.code := by
      rcases ho' with ⟨-, rfl⟩ | ⟨-, rfl⟩ | ⟨-, nx, s, hx, rfl⟩
      · exact ⟨s1, v1⟩
      · exact ⟨s1, v1⟩
      · rw [hx] at s1 v1
        exact ⟨fun e he => s1 e (by simp [Ex.subs, he]), fun v hv => v1 v (by simpa [Ex.vars] using hv)⟩
    have h1 := compute_step hU o.2 hi so.1 so.2 ha
    obtain ⟨defs, hd⟩ := h1.ext
    obtain ⟨c1, c2⟩ := ih h1.inv (fun z hz => hs z (by simp [hz])) (fun z hz => hn z (by simp [hz]))
      (fun z hz => by rw [h1.ext.inputs]; exact hv z (by simp [hz])) hq
    have hsc := h1.inv.wf
    rw [hd, scoped_append, List.nil_append] at hsc
    have hdec : declared a.2.code = declared B.code ++ declared (defs.map fun p => Item.def p.1 p.2) := by rw [hd, declared_append]
    constructor
    · rw [newLines_ext hd, compiles_append, declaredF_defs, ← hdec]
      refine ⟨compiles_defs _ _ hsc.2, ?_, by simp [FLine.decl], by simpa [FLine.decl] using c1⟩
      intro v hv'
      simp only [FLine.uses, List.mem_append] at hv'
      rcases hv' with hv' | hv'
      · rw [hdec]
        exact List.mem_append_left _ (inputs_sub _ v (v0 v hv'))
      · exact h1.vars v hv'
    · intro env m hm
      rw [newLines_ext hd, runLines_append, runLines_defs]
      have henv : after ρ (defs.map fun p => Item.def p.1 p.2) m.env = after ρ a.2.code env := by
        rw [hm, hd, after_append]
      have hp : p.1.val (withVar ρ (after ρ a.2.code env)) = p.1.val ρ := by
        rw [show p.1.val ρ = p.1.val (withVar ρ ρ.var) from rfl]
        refine val_congr ρ _ fun w hw => ?_
        refine h1.inv.inputs env w ?_
        rw [h1.ext.inputs]
        exact v0 w hw
      obtain ⟨m1, hm1⟩ : ∃ m1, m1 = FLine.exec ρ xn { m with env := after ρ (defs.map fun p => Item.def p.1 p.2) m.env }
        (.storeX p.1 o.1 a.1) := ⟨_, rfl⟩
      have hm1' : m1 = ⟨after ρ a.2.code env, m.y, if index (p.1.val ρ) < xn then
          Function.update m.x (index (p.1.val ρ)) (if add then m.x (index (p.1.val ρ)) + (p.2.val ρ).re else (p.2.val ρ).re) else m.x⟩ := by
        rw [hm1]
        simp only [FLine.exec, henv, hp, h1.val env]
        by_cases hk : index (p.1.val ρ) < xn
        · simp only [hk, if_true]
          rcases ho' with ⟨rfl, rfl⟩ | ⟨rfl, rfl⟩ | ⟨rfl, nx, s, hx, rfl⟩
          · simp
          · simp
          · simp [hx, Ex.val, sub_eq_add_neg]
        · simp only [hk, if_false]
      obtain ⟨k1, k2⟩ := c2 env m1 (by rw [hm1'])
      show (runLines ρ xn q.1 (FLine.exec ρ xn _ (.storeX p.1 o.1 a.1))).y = _ ∧
        (runLines ρ xn q.1 (FLine.exec ρ xn _ (.storeX p.1 o.1 a.1))).x = _
      rw [← hm1, k1, k2, hm1']
      exact ⟨rfl, rfl⟩

theorem putsX_append {xn : ℕ} {add : Bool} (l l' : List (ℕ × ℝ)) (x : ℕ → ℝ) : putsX xn add (l ++ l') x = putsX xn add l' (putsX xn add l x) := by
  induction l generalizing x with
  | nil => rfl
  | cons p l ih => exact ih _

theorem putsX_scatter {xn : ℕ} {add : Bool} (a dj : ℕ) (v : ℕ → ℝ) (R : ℕ) (x : ℕ → ℝ) :
    putsX xn add ((List.range R).map fun i => (a + i * dj, v i)) x = FFT.scatterX add xn a dj v R x := by
  induction R with
  | zero => rfl
  | succ R ih => rw [List.range_succ, List.map_append, putsX_append, ih]; rfl

/-- The last lines of a transposed first butterfly. -/
theorem storesX_run {xn : ℕ} {add : Bool} {M : FMem} {N D : List String} {U : Ex → Prop} {B : Blk} {ks zs : List Ex} {w : List FLine × Blk} {a dj R : ℕ}
    {v : ℕ → ℝ} (hU : ∀ e e', U e → U e' → e.sig C = e'.sig C → e.val (withVar ρ M.env) = e'.val (withVar ρ M.env))
    (hi : Inv C (withVar ρ M.env) U B) (hB : B.code = N.map .decl) (hs : ∀ e ∈ zs, ∀ e' ∈ e.subs, U e')
    (hn : ∀ e ∈ zs, ∀ n : ℤ, e = .int n → 0 ≤ n)
    (hk : IsIL (withVar ρ M.env) D ks fun i => (a : ℤ) + (i : ℕ) * (dj : ℤ)) (hD : ∀ v ∈ D, v ∈ N)
    (hz : IsRL (withVar ρ M.env) N zs v) (lk : ks.length = R) (lz : zs.length = R) (e : storesX C add (ks.zip zs) B = .ok w) :
    Compiles N w.1 ∧ (runLines ρ xn w.1 M).y = M.y ∧ (runLines ρ xn w.1 M).x = FFT.scatterX add xn a dj v R M.x := by
  have hin : Spec.inputs B.code = N := by rw [hB, inputs_decls]
  have hmem : ∀ p ∈ ks.zip zs, p.1 ∈ ks ∧ p.2 ∈ zs := fun p hp => ⟨(List.of_mem_zip hp).1, (List.of_mem_zip hp).2⟩
  have hZ : ∀ z ∈ zs, In N z := by
    intro z hz'
    obtain ⟨i, h, rfl⟩ := List.getElem_of_mem hz'
    exact (isRL_get zs v hz i h).1
  have hK : ∀ e ∈ ks, In N e := by
    intro e he
    obtain ⟨i, h, rfl⟩ := List.getElem_of_mem he
    exact fun u hu => hD u ((isIL_get ks _ hk i h).1 u hu)
  obtain ⟨c, r⟩ := storesX_step (xn := xn) hU (ks.zip zs) hi (fun p hp => hs _ (hmem p hp).2) (fun p hp => hn _ (hmem p hp).2)
    (fun p hp => by rw [hin]; exact ⟨hK _ (hmem p hp).1, hZ _ (hmem p hp).2⟩) e
  rw [hB, declared_decls] at c
  obtain ⟨ry, rx⟩ := r M.env M (by rw [hB, after_decls_id])
  rw [runLines_withVar] at rx ry
  refine ⟨c, ry, ?_⟩
  rw [rx, ← putsX_scatter]
  congr 1
  refine List.ext_getElem (by simp [lk, lz]) fun i h1 h2 => ?_
  have hi : i < R := by simpa using h2
  simp only [List.getElem_map, List.getElem_zip, List.getElem_range]
  have k := (isIL_get ks _ hk i (by omega)).2
  have z := isRL_get zs _ hz i (by omega)
  rw [z.2, k]
  have hc : (((a : ℤ) + (i : ℕ) * (dj : ℤ) : ℤ) : ℂ) = ((a + i * dj : ℕ) : ℂ) := by push_cast; rfl
  rw [hc, index_nat]
  simp

/-! ## First levels -/

/-- All names of a transposed first butterfly. -/
def lastAll (r : ℕ) : List String := firstNames r ++ (firstInner r ++ numbered "y" (2 ^ r / 2))

theorem lastIdx_sub (r : ℕ) : ∀ v ∈ firstIdx r, v ∈ lastAll r := by
  intro v hv
  unfold firstIdx at hv
  split_ifs at hv with hr
  · refine List.mem_append_left _ ?_
    simp only [List.mem_cons, List.not_mem_nil, or_false] at hv
    rcases hv with rfl | rfl | rfl <;> simp [firstNames, hr]
  · simp at hv

theorem lastAll_px {r : ℕ} (n : ℕ) : ∀ v ∈ lastAll r, v ∉ numbered "px" n := by
  intro v hv
  rcases List.mem_append.mp hv with hv | hv
  · unfold firstNames at hv
    split_ifs at hv
    · simp only [List.cons_append, List.nil_append, List.mem_cons, List.not_mem_nil, or_false] at hv
      rcases hv with rfl | rfl | rfl | rfl | rfl | rfl | rfl
      on_goal 6 => exact p_px n
      all_goals exact head_px (by decide)
    · simp only [List.cons_append, List.nil_append, List.mem_cons, List.not_mem_nil, or_false] at hv
      rcases hv with rfl | rfl | rfl | rfl
      on_goal 4 => exact p_px n
      all_goals exact head_px (by decide)
  · rcases List.mem_append.mp hv with hv | hv
    · unfold firstInner at hv
      split_ifs at hv
      · simp only [List.mem_cons, List.not_mem_nil, or_false] at hv
        rcases hv with rfl | rfl <;> exact head_px (by decide)
      · simp at hv
    · simp only [numbered, List.mem_map] at hv
      obtain ⟨i, -, rfl⟩ := hv
      exact y_px n i

theorem firstBody_r {nr j j1 : Ex} {x : List Ex} {st : CSt} {q} (h : firstBodyX C S r nr j j1 x st = .ok q) : r = 1 ∨ r = 2 ∨ r = 3 := by
  match r, h with
  | 1, _ => exact .inl rfl
  | 2, _ => exact .inr (.inl rfl)
  | 3, _ => exact .inr (.inr rfl)
  | 0, h => cases h
  | _ + 4, h => cases h

/-- What the expressions of a transposed first butterfly stand for. -/
theorem first_back_parts (hC : C.Ok) (hS : S.Ok C) {q : First × CSt} (h : firstX C S r false ⟨true, [], []⟩ = .ok q)
    (hm : Means S tw ρ) (hc : ∀ env, NoClash C (withVar ρ env) q.2.met) 
    (hcirc : (∀ y ∈ q.1.ys, ∀ e ∈ y.subs, Good C true e) → Circuit C true q.1.xs q.1.ys)
    (hlin : ∀ e ∈ q.1.ys, Linear q.1.xs e) (hfree : ∀ e ∈ q.1.bwd, ∀ v ∈ e.vars, v ≠ "unknown" ∧ v ∉ numbered "px" (2 ^ r))
    {env : String → ℂ} {cnt j p mm : ℕ} (hv : FirstEnv r env cnt j p) {ys : ℕ → ℂ}
    (hy : ∀ i < 2 ^ r / 2, env ("y" ++ toString i) = ys i) (h1 : r = 3 → env "j1" = ((j &&& (mm - 1) : ℕ) : ℂ)) :
    (r = 3 → In (firstIdx r) q.1.p ∧ q.1.p.val (withVar ρ env) = ((p - 3 : ℕ) : ℂ)) ∧
    q.1.kx.length = 2 ^ r ∧ q.1.ky.length = 2 ^ r / 2 ∧ q.1.bwd.length = 2 ^ r ∧
      (IsIL (withVar ρ env) (firstIdx r) q.1.kx fun i => (j : ℤ) + (i : ℕ) * (cnt : ℤ)) ∧
      (IsIL (withVar ρ env) (firstIdx r) q.1.ky fun i => (j : ℤ) + (i : ℕ) * (cnt : ℤ)) ∧
      IsRL (withVar ρ env) (lastAll r) q.1.bwd (FFT.transposeR (2 ^ r / 2) (FFT.firstLevels r j cnt mm (firstTw tw r)) ys) := by
  unfold firstX at h
  obtain ⟨px, e1, h⟩ := gen_bind h
  obtain ⟨kx, e2, h⟩ := gen_bind h
  obtain ⟨ky, e3, h⟩ := gen_bind h
  simp only [Bool.false_eq_true, if_false] at h
  obtain ⟨py, e4, h⟩ := gen_bind h
  obtain ⟨y, e5, h⟩ := gen_bind h
  obtain ⟨g, e6, h⟩ := gen_bind h
  obtain ⟨u, e7, h⟩ := gen_bind h
  have eu : u.2 = g.2 := by
    by_cases hp : g.1.length = kx.1.length
    · rw [slowAssert_true hp] at e7; cases e7; rfl
    · simp only [slowAssert, hp, if_false] at e7; cases e7
  cases h
  simp only at hcirc hlin hfree hc ⊢
  rw [eu] at hc
  have hr := firstBody_r e4
  have g1 := grows_firstPow _ _ empty_ok (show firstPow C S r _ = _ from e1)
  have g2 := grows_locsX (C := C) _ _ _ _ _ _ g1.1 e2
  have g3 := grows_locsX (C := C) _ _ _ _ _ _ g2.1 e3
  have g4 := grows_firstBodyX (C := C) _ _ _ _ _ _ _ g3.1 e4
  have g5 := grows_splitAll (C := C) _ _ _ g4.1 e5
  -- good
  have b0 : CSt.Good C ⟨true, [], []⟩ := fun p hp => by simp at hp
  have hpow : 2 ^ r ≤ 2 ^ 31 := Nat.pow_le_pow_right (by norm_num) (by omega)
  have hP : RunsX C (firstPow C S r) (Good C true) := by
    unfold firstPow
    split_ifs
    · exact runs_sub hC (good_name hS "p") (good_int (by norm_num) (by norm_num))
    · exact .pure (good_int (by norm_num) (by norm_num))
  have hL : Good C true (firstLoop S r).1 ∧ Good C true (firstLoop S r).2 := by
    unfold firstLoop
    split_ifs
    · exact ⟨good_name hS _, good_name hS _⟩
    · exact ⟨good_int (by norm_num) (by norm_num), good_int (by norm_num) (by norm_num)⟩
  have b1 := hP.result b0 rfl e1
  have b2 := (runs_locsX hC hL.2 hL.1 _ 0 (by omega)).result b1.1 b1.2.1 e2
  have b3 := (runs_locsX hC hL.2 hL.1 _ 0 (by omega)).result b2.1 b2.2.1 e3
  have b4 := (runs_firstBodyX hC hS hr (by simp [numbered]) (good_names hS (numbered "px" (2 ^ r)))).result b3.1 b3.2.1 e4
  have b5 := (runs_splitAll hC _ (good_names hS (numbered "y" (2 ^ r / 2)))).result b4.1 b4.2.1 e5
  have ly : y.1.length = 2 ^ r / 2 := by rw [b5.2.2.1]; simp [numbered]
  obtain ⟨lg, lpy, hmet, hsum⟩ := gradientX_sum hC hS e6 (hcirc fun y hy => good_subs (good_flatten b4.2.2.2 y hy)) hlin b5.1 b5.2.1 g5.1 b5.2.2.2
  have lg' : g.1.length = 2 ^ r := by rw [lg]; simp [numbered]
  have hM5 : y.2.met ⊆ g.2.met := hmet
  have hM4 : py.2.met ⊆ g.2.met := fun x hx => hM5 (g5.2 hx)
  have hM3 : ky.2.met ⊆ g.2.met := fun x hx => hM4 (g4.2 hx)
  have hM2 : kx.2.met ⊆ g.2.met := fun x hx => hM3 (g3.2 hx)
  have hM1 : px.2.met ⊆ g.2.met := fun x hx => hM2 (g2.2 hx)
  obtain ⟨a1, q1⟩ := does_firstPow (S := S) (hc env) hv _ _ empty_ok (empty_all _) e1 hM1
  obtain ⟨n1, n2⟩ := first_loop_vals (ρ := ρ) (S := S) hv (D := firstIdx r) fun _ h => h
  obtain ⟨a2, l2, q2⟩ := does_locsX (hc env) n2 n1 (2 ^ r) 0 _ _ g1.1 a1 e2 hM2
  obtain ⟨a3, l3, q3⟩ := does_locsX (hc env) n2 n1 (2 ^ r / 2) 0 _ _ g2.1 a2 e3 hM3
  refine ⟨q1, l2, l3, lg', by simpa using q2, by simpa using q3, ?_⟩
  obtain ⟨D, hD⟩ : ∃ D, D = lastAll r ++ (numbered "px" (2 ^ r) ++ ["unknown"]) := ⟨_, rfl⟩
  have hDn : ∀ v ∈ lastAll r, v ∈ D := fun v hv => hD ▸ List.mem_append_left _ hv
  have hfr : ∀ v ∈ lastAll r, v ∉ numbered "px" (2 ^ r) := lastAll_px _
  have hone : ∀ k : ℕ, k < 2 ^ r → ((((((numbered "px" (2 ^ r)).map S.name).zip g.1).map fun p =>
      p.1.val (withVar ρ (probe (2 ^ r) k 1 env)) * p.2.val (withVar ρ (probe (2 ^ r) k 1 env))).sum =
        ((FFT.transposeR (2 ^ r / 2) (FFT.firstLevels r j cnt mm (firstTw tw r)) ys k : ℝ) : ℂ)) ∧
      IsRL (withVar ρ (probe (2 ^ r) k 1 env)) D ((numbered "px" (2 ^ r)).map S.name) (FFT.unit k 1) ∧ ∀ e ∈ g.1, In D e) := by
    intro k hk
    obtain ⟨env', he'⟩ : ∃ env', env' = probe (2 ^ r) k 1 env := ⟨_, rfl⟩
    have ho : ∀ v, v ∉ numbered "px" (2 ^ r) → env' v = env v := fun v hv => by rw [he', probe_other hk hv]
    have hpx : ∀ i < 2 ^ r, env' ("px" ++ toString i) = ((FFT.unit k 1 i : ℝ) : ℂ) := fun i hi => by
      rw [he', probe_px hi]
      unfold FFT.unit
      split_ifs <;> simp
    have hy' : ∀ i < 2 ^ r / 2, env' ("y" ++ toString i) = ys i := fun i hi => by rw [ho _ (y_px _ i), hy i hi]
    have hv' : FirstEnv r env' cnt j p := firstEnv_congr hv fun v hv => ho v (hfr v (lastIdx_sub r v hv))
    have h1' : r = 3 → env' "j1" = ((j &&& (mm - 1) : ℕ) : ℂ) := fun hr => by rw [ho _ (head_px (by decide)), h1 hr]
    rw [← he']
    obtain ⟨n3, n4⟩ := first_loop_vals (ρ := ρ) (S := S) hv' fun v hv => hDn v (lastIdx_sub r v hv)
    have q0 := isRL_numbered (ρ := ρ) (S := S) (D := D) hpx fun v hv => hD ▸ List.mem_append_right _ (List.mem_append_left _ hv)
    obtain ⟨a4, l4, q4⟩ := does_firstBodyX (S := S) (j1 := S.name "j1") (m := mm) (hm.withVar env') (hc env') n3 n4
      (fun hr => isI_name env' (hDn _ (by simp [lastAll, firstInner, hr])) (h1' hr)) q0 _ _ g3.1
      (all_mono a3 fun v hv => hDn v (lastIdx_sub r v hv)) e4 hM4
    obtain ⟨a5, l5, q5⟩ := split_names (M := g.2.met) (D := D) hm (hc env') hy' (fun v hv =>
      hDn v (List.mem_append_right _ (List.mem_append_right _ hv))) _ _ g4.1 a4 e5 hM5
    refine ⟨?_, q0, gradientX_in e6 (by simp [hD]) (isL_in q4) (isL_in q5) a5⟩
    rw [hsum _ (hc env'), flat_sum_val q4 q5 lpy, lpy, ly]
    rfl
  have hin : ∀ e ∈ g.1, In (lastAll r) e := by
    intro e he v hv
    have h1 := (hone 0 (Nat.two_pow_pos r)).2.2 e he v hv
    have h2 := hfree e he v hv
    rw [hD, List.mem_append, List.mem_append (s := numbered "px" _), List.mem_singleton] at h1
    rcases h1 with h1 | h1 | h1
    · exact h1
    · exact absurd h1 h2.2
    · exact absurd h1 h2.1
  refine isRL_of_get _ _ fun k hk => ?_
  have hk' : k < 2 ^ r := by omega
  have hg : In (lastAll r) g.1[k] := hin _ (List.getElem_mem hk)
  refine ⟨hg, ?_⟩
  have hp := (hone k hk').2.1
  rw [← (hone k hk').1, real_sum (.int 0) _ _ (by rw [lg']; simp [numbered]), Finset.sum_eq_single k]
  · have h2 := isRL_get _ _ hp k (by simpa [numbered] using hk')
    rw [List.getD_eq_getElem _ _ (by simpa [numbered] using hk'), h2.2, List.getD_eq_getElem _ _ hk]
    rw [val_congr ρ (env' := env) _ fun v hv => probe_other hk' (hfr v (hg v hv))]
    simp [FFT.unit]
  · intro i hi hik
    have hi' : i < ((numbered "px" (2 ^ r)).map S.name).length := Finset.mem_range.mp hi
    have h2 := isRL_get _ _ hp i hi'
    rw [List.getD_eq_getElem _ _ hi', h2.2]
    simp [FFT.unit, hik]
  · intro hn
    exact absurd (Finset.mem_range.mpr (by simpa [numbered] using hk')) hn

end

end Mandelbrot.Sym
