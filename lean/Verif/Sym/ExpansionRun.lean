import Verif.Sym.ExpansionSim

/-!
# The loops of the generated operators on expansions, and the lines written for them
-/

namespace Mandelbrot.Sym

open Sig (Sg)
open Spec
open Mandelbrot.Float (Sc twoSum twoProd)

section
variable {C : Cfg} {ins M : List Ex} {D : List String} {rn : ℝ → ℝ} {ρ : Interp (Fl rn)}

/-! ## What was looked up is kept -/

theorem grows_twoSum (a b : Ex) : Grows C (twoSumX C a b) := by
  unfold twoSumX
  split_ifs
  · exact .pure _
  · exact .pure _
  · exact (grows_add _ _).bind fun _ => (grows_sub _ _).bind fun _ => (grows_sub _ _).bind fun _ => (grows_sub _ _).bind fun _ =>
      (grows_sub _ _).bind fun _ => (grows_add _ _).bind fun _ => .pure _

theorem grows_twoProd (w : Sg) (a b : Ex) : Grows C (twoProdX C w a b) :=
  (grows_mul _ _).bind fun _ => (grows_neg _).bind fun _ => (grows_fma _ _ _ _).bind fun _ => .pure _

theorem grows_pass : ∀ (l : List Ex) (t : Ex), Grows C (passX C t l)
  | [], _ => .pure _
  | _ :: l, _ => (grows_twoSum _ _).bind fun _ => (grows_pass l _).bind fun _ => .pure _

theorem grows_sumState : ∀ (l state : List Ex), Grows C (sumStateX C l state)
  | [], _ => .pure _
  | _ :: l, _ => (grows_pass _ _).bind fun _ => grows_sumState l _

theorem grows_collangeAdd (x y : List Ex) : Grows C (collangeAddX C x y) :=
  (Grows.ofRes _).bind fun _ => (grows_sumState _ _).bind fun _ => (Grows.ofRes _).bind fun _ => .pure _

theorem grows_negX : ∀ l : List Ex, Grows C (negX C l)
  | [] => .pure _
  | _ :: l => (grows_neg _).bind fun _ => (grows_negX l).bind fun _ => .pure _

theorem grows_addPlaces : ∀ s e : List Ex, Grows C (addPlacesX C s e)
  | [], _ => by unfold addPlacesX; exact .pure _
  | _ :: _, [] => .pure _
  | _ :: l, _ :: m => (grows_twoSum _ _).bind fun _ => (grows_addPlaces l m).bind fun _ => .pure _

theorem grows_drain : ∀ (fuel : ℕ) (s e : List Ex), Grows C (drainX C fuel s e) := by
  intro fuel
  induction fuel with
  | zero => intro s e; unfold drainX; split_ifs; exacts [.ofRes _, .pure _]
  | succ fuel ih => intro s e; unfold drainX; split_ifs; exacts [(grows_addPlaces _ _).bind fun _ => ih _ _, .pure _]

theorem grows_prodRow (w : Sg) (yi : Ex) : ∀ s x : List Ex, Grows C (prodRowX C w yi s x)
  | [], _ => by unfold prodRowX; exact .pure _
  | _ :: _, [] => .pure _
  | _ :: l, _ :: m => (grows_twoProd _ _ _).bind fun _ => (grows_twoSum _ _).bind fun _ => (grows_prodRow w yi l m).bind fun _ => .pure _

theorem grows_mulRounds (w : Sg) (x : List Ex) : ∀ y s : List Ex, Grows C (mulRoundsX C w x y s)
  | [], _ => .pure _
  | _ :: y, _ => (grows_prodRow _ _ _ _).bind fun _ => (grows_drain _ _ _).bind fun _ => (grows_drain _ _ _).bind fun _ =>
    (grows_mulRounds w x y _).bind fun _ => .pure _

/-! ## Values -/

/-- A number of the algorithm: the literal zero or the value of an expression. -/
noncomputable def toSc (ρ : Interp (Fl rn)) (e : Ex) : Sc := if e.isZero then none else some (e.val ρ).v

/-- An expression in the lists of the generator. -/
def Elem (C : Cfg) (P : List Ex) (D : List String) (e : Ex) : Prop := e = .int 0 ∨ Fine C P D e

theorem toSc_zero : toSc ρ (.int 0) = none := rfl

theorem toSc_fine {P : List Ex} {e : Ex} (h : Fine C P D e) : toSc ρ e = some (e.val ρ).v := by
  unfold toSc; rw [h.plain.zero.1]; rfl

theorem toSc_isSome (e : Ex) : (toSc ρ e).isSome = !e.isZero := by
  unfold toSc; cases e.isZero <;> rfl

theorem elem_zero {P : List Ex} : Elem C P D (.int 0) := Or.inl rfl

theorem twoSum_gives (hr : Symmetric rn) (hsm : NoSmall C M) (hc : NoClash C ρ M) {a b : Ex} (ha : Elem C (ins ++ M) D a)
    (hb : Elem C (ins ++ M) D b) : Gives C ins M D (twoSumX C a b) fun r => Elem C (ins ++ M) D r.1 ∧ Elem C (ins ++ M) D r.2 ∧
      (toSc ρ r.1, toSc ρ r.2) = twoSum rn (toSc ρ a) (toSc ρ b) := by
  unfold twoSumX
  rcases ha with rfl | ha
  · rw [if_pos (show (Ex.int 0).isZero = true from rfl)]
    refine .pure ⟨hb, elem_zero, ?_⟩
    simp only [toSc_zero, twoSum]
  rw [if_neg (by rw [ha.plain.zero.1]; exact Bool.false_ne_true)]
  rcases hb with rfl | hb
  · rw [if_pos (show (Ex.int 0).isZero = true from rfl)]
    refine .pure ⟨Or.inr ha, elem_zero, ?_⟩
    simp only [toSc_zero, toSc_fine ha, twoSum]
  rw [if_neg (by rw [hb.plain.zero.1]; exact Bool.false_ne_true)]
  refine (add_gives hr hsm hc ha hb).bind (fun _ => (grows_sub _ _).bind fun _ => (grows_sub _ _).bind fun _ => (grows_sub _ _).bind fun _ =>
      (grows_sub _ _).bind fun _ => (grows_add _ _).bind fun _ => .pure _) (grows_add _ _) ?_
  rintro x ⟨fx, ex⟩
  refine (sub_gives hr hsm hc fx ha).bind (fun _ => (grows_sub _ _).bind fun _ => (grows_sub _ _).bind fun _ =>
      (grows_sub _ _).bind fun _ => (grows_add _ _).bind fun _ => .pure _) (grows_sub _ _) ?_
  rintro v ⟨fv, ev⟩
  refine (sub_gives hr hsm hc fx fv).bind (fun _ => (grows_sub _ _).bind fun _ =>
      (grows_sub _ _).bind fun _ => (grows_add _ _).bind fun _ => .pure _) (grows_sub _ _) ?_
  rintro w ⟨fw, ew⟩
  refine (sub_gives hr hsm hc ha fw).bind (fun _ => (grows_sub _ _).bind fun _ => (grows_add _ _).bind fun _ => .pure _) (grows_sub _ _) ?_
  rintro p ⟨fp, ep⟩
  refine (sub_gives hr hsm hc hb fv).bind (fun _ => (grows_add _ _).bind fun _ => .pure _) (grows_sub _ _) ?_
  rintro q ⟨fq, eq⟩
  refine (add_gives hr hsm hc fp fq).bind (fun _ => .pure _) (grows_add _ _) ?_
  rintro y ⟨fy, ey⟩
  refine .pure ⟨Or.inr fx, Or.inr fy, ?_⟩
  simp only [toSc_fine ha, toSc_fine hb, toSc_fine fx, toSc_fine fy, twoSum]
  rw [ey, ep, eq, ew, ev, ex]
  simp only [Fl.add_v, Fl.sub_v]

/-- The call that the interpretation gives a meaning to. -/
def Fused (ρ : Interp (Fl rn)) : Prop := ∀ a b c : Fl rn, ρ.call "fma" [a, b, c] = ⟨rn (a.v * b.v + c.v)⟩

theorem twoProd_gives (hr : Symmetric rn) (hf : Fused ρ) (hsm : NoSmall C M) (hc : NoClash C ρ M) (w : Sg) {a b : Ex}
    (ha : Fine C (ins ++ M) D a) (hb : Fine C (ins ++ M) D b) : Gives C ins M D (twoProdX C w a b) fun r =>
      Fine C (ins ++ M) D r.1 ∧ Fine C (ins ++ M) D r.2 ∧ ((r.1.val ρ).v, (r.2.val ρ).v) = twoProd rn (a.val ρ).v (b.val ρ).v := by
  unfold twoProdX
  refine (mul_gives hr hsm hc ha hb).bind (fun _ => (grows_neg _).bind fun _ => (grows_fma _ _ _ _).bind fun _ => .pure _)
    (grows_mul _ _) ?_
  rintro x ⟨fx, ex⟩
  refine (neg_gives (ρ := ρ) fx).bind (fun _ => (grows_fma _ _ _ _).bind fun _ => .pure _) (grows_neg _) ?_
  rintro m ⟨fm, em⟩
  refine (fma_gives hsm hc w ha hb fm).bind (fun _ => .pure _) (grows_fma _ _ _ _) ?_
  rintro y ⟨fy, ey⟩
  refine .pure ⟨fx, fy, ?_⟩
  simp only [twoProd]
  rw [ey, hf, em, ex]
  rfl

/-- All are elements. -/
def Elems (C : Cfg) (P : List Ex) (D : List String) (l : List Ex) : Prop := ∀ e ∈ l, Elem C P D e

theorem elems_cons {P : List Ex} {a : Ex} {l : List Ex} : Elems C P D (a :: l) ↔ Elem C P D a ∧ Elems C P D l := by
  simp [Elems]

theorem pass_gives (hr : Symmetric rn) (hsm : NoSmall C M) (hc : NoClash C ρ M) : ∀ (l : List Ex) (t : Ex), Elem C (ins ++ M) D t →
    Elems C (ins ++ M) D l → Gives C ins M D (passX C t l) fun r => Elems C (ins ++ M) D r ∧
      r.map (toSc ρ) = Float.pass rn (toSc ρ t) (l.map (toSc ρ)) := by
  intro l
  induction l with
  | nil => intro t ht _; exact .pure ⟨by simpa [Elems] using ht, rfl⟩
  | cons s l ih =>
    intro t ht hl
    rw [elems_cons] at hl
    unfold passX
    refine (twoSum_gives hr hsm hc ht hl.1).bind (fun _ => (grows_pass _ _).bind fun _ => .pure _) (grows_twoSum _ _) ?_
    rintro ⟨x, y⟩ ⟨fx, fy, e⟩
    refine (ih y fy hl.2).bind (fun _ => .pure _) (grows_pass _ _) ?_
    rintro q ⟨fq, eq⟩
    refine .pure ⟨elems_cons.mpr ⟨fx, fq⟩, ?_⟩
    simp only [List.map_cons, Float.pass, ← e, eq]

theorem sumState_gives (hr : Symmetric rn) (hsm : NoSmall C M) (hc : NoClash C ρ M) : ∀ (l state : List Ex), Elems C (ins ++ M) D l →
    Elems C (ins ++ M) D state → Gives C ins M D (sumStateX C l state) fun r => Elems C (ins ++ M) D r ∧
      r.map (toSc ρ) = (l.map (toSc ρ)).foldl (fun st t => Float.pass rn t st) (state.map (toSc ρ)) := by
  intro l
  induction l with
  | nil => intro state _ hs; exact .pure ⟨hs, rfl⟩
  | cons t l ih =>
    intro state hl hs
    rw [elems_cons] at hl
    unfold sumStateX
    refine (pass_gives hr hsm hc state t hl.1 hs).bind (fun _ => grows_sumState _ _) (grows_pass _ _) ?_
    rintro q ⟨fq, eq⟩
    simp only [List.map_cons, List.foldl_cons, ← eq]
    exact ih q hl.2 fq

/-- The values of operands. -/
noncomputable def nums (ρ : Interp (Fl rn)) (l : List Ex) : List ℝ := l.map fun e => (e.val ρ).v

theorem interleave_vals {P : List Ex} : ∀ x y : List Ex, (∀ e ∈ x, Fine C P D e) → (∀ e ∈ y, Fine C P D e) →
    Elems C P D (interleaveX x y) ∧ (interleaveX x y).map (toSc ρ) = Float.interleave (nums ρ x) (nums ρ y) := by
  intro x
  induction x with
  | nil => intro y _ _; exact ⟨by simp [interleaveX, Elems], rfl⟩
  | cons a x ih =>
    intro y hx hy
    cases y with
    | nil => exact ⟨by simp [interleaveX, Elems], rfl⟩
    | cons b y =>
      obtain ⟨h1, h2⟩ := ih y (fun e he => hx e (by simp [he])) fun e he => hy e (by simp [he])
      have fa := hx a (by simp)
      have fb := hy b (by simp)
      refine ⟨elems_cons.mpr ⟨Or.inr fa, elems_cons.mpr ⟨Or.inr fb, h1⟩⟩, ?_⟩
      simp only [interleaveX, List.map_cons, nums, Float.interleave, toSc_fine fa, toSc_fine fb]
      rw [h2]; rfl

theorem sc_val {P : List Ex} {e : Ex} (h : Elem C P D e) : Sc.val (toSc ρ e) = (e.val ρ).v := by
  rcases h with rfl | h
  · show (0 : ℝ) = ((0 : ℤ) : ℝ)
    simp
  · rw [toSc_fine h]; rfl

theorem assert_gives {α : Type} {c : Prop} [Decidable c] {m : Gen CSt α} {Q : α → Prop} (h : c → Gives C ins M D m Q)  :
    Gives C ins M D (ofRes (slowAssert c) >>= fun _ => m) Q := by
  intro st r hw e hM
  by_cases hc : c
  · have h1 : slowAssert c = .ok () := slowAssert_true hc
    rw [h1] at e
    exact h hc st r hw e hM
  · have h1 : slowAssert c = .error .assertion := slowAssert_false hc
    rw [h1] at e
    cases e

theorem collangeAdd_gives (hr : Symmetric rn) (hsm : NoSmall C M) (hc : NoClash C ρ M) {x y : List Ex}
    (hx : ∀ e ∈ x, Fine C (ins ++ M) D e) (hy : ∀ e ∈ y, Fine C (ins ++ M) D e) :
    Gives C ins M D (collangeAddX C x y) fun r => Elems C (ins ++ M) D r ∧ Float.collangeAdd rn (nums ρ x) (nums ρ y) = .ok (nums ρ r) := by
  unfold collangeAddX
  refine assert_gives fun hl => ?_
  obtain ⟨i1, i2⟩ := interleave_vals (ρ := ρ) x y hx hy
  refine (sumState_gives hr hsm hc (interleaveX x y) [] i1 (by simp [Elems])).bind (fun _ => (Grows.ofRes _).bind fun _ => .pure _)
    (grows_sumState _ _) ?_
  rintro q ⟨fq, eq⟩
  refine assert_gives fun hq => .pure ⟨fun e he => fq e (List.mem_of_mem_take he), ?_⟩
  have hs : Float.sumState rn (nums ρ x) (nums ρ y) = q.map (toSc ρ) := by rw [eq, i2]; rfl
  have h1 : (nums ρ x).length = (nums ρ y).length := by simpa [nums] using hl
  have h2 : (Float.sumState rn (nums ρ x) (nums ρ y)).length = 2 * (nums ρ x).length := by rw [hs]; simpa [nums] using hq
  simp only [Float.collangeAdd]
  rw [slowAssert_true h1, slowAssert_true h2, hs]
  show Except.ok _ = Except.ok _
  congr 1
  rw [← List.map_take, List.map_map, nums, nums, List.length_map]
  exact List.map_congr_left fun e he => sc_val (fq e (List.mem_of_mem_take he))

theorem negX_gives : ∀ l : List Ex, (∀ e ∈ l, Fine C (ins ++ M) D e) →
    Gives C ins M D (negX C l) fun r => (∀ e ∈ r, Fine C (ins ++ M) D e) ∧ nums ρ r = Float.negate (nums ρ l) := by
  intro l
  induction l with
  | nil => intro _; exact .pure ⟨by simp, rfl⟩
  | cons x l ih =>
    intro hl
    unfold negX
    refine (neg_gives (ρ := ρ) (hl x (by simp))).bind (fun _ => (grows_negX _).bind fun _ => .pure _) (grows_neg _) ?_
    rintro y ⟨fy, ey⟩
    refine (ih fun e he => hl e (by simp [he])).bind (fun _ => .pure _) (grows_negX _) ?_
    rintro q ⟨fq, eq⟩
    refine .pure ⟨by intro e he; rcases List.mem_cons.mp he with rfl | he; exacts [fy, fq e he], ?_⟩
    simp only [nums, List.map_cons, Float.negate] at eq ⊢
    rw [eq, ey]; rfl

theorem collangeSub_gives (hr : Symmetric rn) (hsm : NoSmall C M) (hc : NoClash C ρ M) {x y : List Ex}
    (hx : ∀ e ∈ x, Fine C (ins ++ M) D e) (hy : ∀ e ∈ y, Fine C (ins ++ M) D e) :
    Gives C ins M D (collangeSubX C x y) fun r => Elems C (ins ++ M) D r ∧ Float.collangeSub rn (nums ρ x) (nums ρ y) = .ok (nums ρ r) := by
  unfold collangeSubX
  refine (negX_gives (ρ := ρ) y hy).bind (fun _ => grows_collangeAdd _ _) (grows_negX _) ?_
  rintro z ⟨fz, ez⟩
  rw [Float.collangeSub, ← ez]
  exact collangeAdd_gives hr hsm hc hx fz

theorem addPlaces_gives (hr : Symmetric rn) (hsm : NoSmall C M) (hc : NoClash C ρ M) : ∀ s e : List Ex, Elems C (ins ++ M) D s →
    Elems C (ins ++ M) D e → Gives C ins M D (addPlacesX C s e) fun r => Elems C (ins ++ M) D r.1 ∧ Elems C (ins ++ M) D r.2 ∧
      (r.1.map (toSc ρ), r.2.map (toSc ρ)) = Float.addPlaces rn (s.map (toSc ρ)) (e.map (toSc ρ)) := by
  intro s
  induction s with
  | nil => intro e _ _; unfold addPlacesX; exact .pure ⟨by simp [Elems], by simp [Elems], rfl⟩
  | cons a s ih =>
    intro e hs he
    cases e with
    | nil => exact .pure ⟨by simp [Elems], by simp [Elems], rfl⟩
    | cons b e =>
      rw [elems_cons] at hs he
      unfold addPlacesX
      refine (twoSum_gives hr hsm hc hs.1 he.1).bind (fun _ => (grows_addPlaces _ _).bind fun _ => .pure _) (grows_twoSum _ _) ?_
      rintro ⟨x, y⟩ ⟨fx, fy, e1⟩
      refine (ih e hs.2 he.2).bind (fun _ => .pure _) (grows_addPlaces _ _) ?_
      rintro ⟨p, q⟩ ⟨fp, fq, e2⟩
      refine .pure ⟨elems_cons.mpr ⟨fx, fp⟩, elems_cons.mpr ⟨fy, fq⟩, ?_⟩
      simp only [List.map_cons, Float.addPlaces, ← e1, ← e2]

theorem any_sc (e : List Ex) : (e.map (toSc ρ)).any Option.isSome = e.any fun x => !x.isZero := by
  rw [List.any_map]
  congr 1
  funext x
  exact toSc_isSome x

theorem drain_gives (hr : Symmetric rn) (hsm : NoSmall C M) (hc : NoClash C ρ M) : ∀ (fuel : ℕ) (s e : List Ex) (out : List Sc),
    Elems C (ins ++ M) D s → Elems C (ins ++ M) D e → Gives C ins M D (drainX C fuel s e) fun r => Elems C (ins ++ M) D r ∧
      r.map (toSc ρ) = (Float.drain rn fuel (s.map (toSc ρ)) (e.map (toSc ρ)) out).1 := by
  intro fuel
  induction fuel with
  | zero =>
    intro s e out hs he
    unfold drainX
    split_ifs with h
    · intro st r _ e _; cases e
    · exact .pure ⟨hs, rfl⟩
  | succ fuel ih =>
    intro s e out hs he
    unfold drainX Float.drain
    rw [any_sc]
    split_ifs with h
    · refine (addPlaces_gives hr hsm hc s e hs he).bind (fun _ => grows_drain _ _ _) (grows_addPlaces _ _) ?_
      rintro ⟨p, q⟩ ⟨fp, fq, e2⟩
      have := ih p (.int 0 :: q.dropLast) (out ++ (q.map (toSc ρ)).getLast?.toList) fp
        (elems_cons.mpr ⟨elem_zero, fun a ha => fq a (List.dropLast_subset _ ha)⟩)
      simp only [← e2]
      rwa [List.map_cons, toSc_zero, List.map_dropLast] at this
    · exact .pure ⟨hs, rfl⟩

theorem prodRow_gives (hr : Symmetric rn) (hf : Fused ρ) (hsm : NoSmall C M) (hc : NoClash C ρ M) (w : Sg) {yi : Ex}
    (hy : Fine C (ins ++ M) D yi) : ∀ s x : List Ex, s.length = x.length → Elems C (ins ++ M) D s → (∀ e ∈ x, Fine C (ins ++ M) D e) →
    Gives C ins M D (prodRowX C w yi s x) fun r => Elems C (ins ++ M) D r.1 ∧ Elems C (ins ++ M) D r.2.1 ∧ Elems C (ins ++ M) D r.2.2 ∧
      (r.1.map (toSc ρ), r.2.2.map (toSc ρ)) = Float.addPlaces rn (s.map (toSc ρ))
        ((nums ρ x).map fun xj => some (twoProd rn xj (yi.val ρ).v).1) ∧
      r.2.1.map (toSc ρ) = (nums ρ x).map fun xj => some (twoProd rn xj (yi.val ρ).v).2 := by
  intro s
  induction s with
  | nil =>
    intro x hl _ _
    have : x = [] := List.length_eq_zero_iff.mp hl.symm
    subst this
    unfold prodRowX
    exact .pure ⟨by simp [Elems], by simp [Elems], by simp [Elems], rfl, rfl⟩
  | cons a s ih =>
    intro x hl hs hx
    cases x with
    | nil => simp at hl
    | cons b x =>
      rw [elems_cons] at hs
      unfold prodRowX
      refine (twoProd_gives hr hf hsm hc w (hx b (by simp)) hy).bind (fun _ => (grows_twoSum _ _).bind fun _ => (grows_prodRow _ _ _ _).bind
        fun _ => .pure _) (grows_twoProd _ _ _) ?_
      rintro ⟨p, e⟩ ⟨fp, fe, e1⟩
      refine (twoSum_gives hr hsm hc hs.1 (Or.inr fp)).bind (fun _ => (grows_prodRow _ _ _ _).bind fun _ => .pure _) (grows_twoSum _ _) ?_
      rintro ⟨t, u⟩ ⟨ft, fu, e2⟩
      refine (ih x (by simpa using hl) hs.2 fun e he => hx e (by simp [he])).bind (fun _ => .pure _) (grows_prodRow _ _ _ _) ?_
      rintro ⟨q1, q2, q3⟩ ⟨f1, f2, f3, e3, e4⟩
      refine .pure ⟨elems_cons.mpr ⟨ft, f1⟩, elems_cons.mpr ⟨Or.inr fe, f2⟩, elems_cons.mpr ⟨fu, f3⟩, ?_, ?_⟩
      · simp only [List.map_cons, nums, Float.addPlaces] at e3 ⊢
        rw [← e3, ← e1]
        simp only
        rw [← toSc_fine (ρ := ρ) fp, ← e2]
      · simp only [List.map_cons, nums] at e4 ⊢
        rw [e4, ← e1, toSc_fine fe]

theorem length_sc (l : List Ex) : (l.map (toSc ρ)).length = l.length := List.length_map ..

theorem addPlaces_length : ∀ s e : List Sc, s.length = e.length → (Float.addPlaces rn s e).1.length = s.length ∧
    (Float.addPlaces rn s e).2.length = s.length := by
  intro s
  induction s with
  | nil => intro e _; cases e <;> exact ⟨rfl, rfl⟩
  | cons a s ih =>
    intro e h
    cases e with
    | nil => simp at h
    | cons b e =>
      obtain ⟨h1, h2⟩ := ih e (by simpa using h)
      simp [Float.addPlaces, h1, h2]

theorem drain_length : ∀ (fuel : ℕ) (s e out : List Sc), s.length = e.length → (Float.drain rn fuel s e out).1.length = s.length := by
  intro fuel
  induction fuel with
  | zero => intro s e out _; rfl
  | succ fuel ih =>
    intro s e out h
    unfold Float.drain
    split_ifs with hany
    · obtain ⟨h1, h2⟩ := addPlaces_length (rn := rn) s e h
      simp only
      have hpos : 0 < e.length := by
        rcases Nat.eq_zero_or_pos e.length with h0 | h0
        · rw [List.length_eq_zero_iff.mp h0] at hany; simp at hany
        · exact h0
      rw [ih _ _ _ (by rw [h1, List.length_cons, List.length_dropLast, h2]; omega), h1]
    · rfl

theorem mulRounds_gives (hr : Symmetric rn) (hf : Fused ρ) (hsm : NoSmall C M) (hc : NoClash C ρ M) (w : Sg) {x : List Ex}
    (hx : ∀ e ∈ x, Fine C (ins ++ M) D e) (hx0 : 0 < x.length) : ∀ y s : List Ex, (∀ e ∈ y, Fine C (ins ++ M) D e) → Elems C (ins ++ M) D s → s.length = x.length →
    Gives C ins M D (mulRoundsX C w x y s) fun r => Elems C (ins ++ M) D r ∧
      r.map (toSc ρ) = (Float.mulRounds rn (nums ρ x) (nums ρ y) (s.map (toSc ρ))).2.1 := by
  intro y
  induction y with
  | nil => intro s _ _ _; exact .pure ⟨by simp [Elems], rfl⟩
  | cons yi y ih =>
    intro s hy hs hl
    unfold mulRoundsX
    refine (prodRow_gives hr hf hsm hc w (hy yi (by simp)) s x hl hs hx).bind (fun _ => (grows_drain _ _ _).bind fun _ =>
      (grows_drain _ _ _).bind fun _ => (grows_mulRounds _ _ _ _).bind fun _ => .pure _) (grows_prodRow _ _ _ _) ?_
    rintro ⟨s1, e, ep⟩ ⟨f1, f2, f3, e1, e2⟩
    simp only at e1 e2 ⊢
    obtain ⟨l1, l2⟩ := addPlaces_length (rn := rn) (s.map (toSc ρ)) ((nums ρ x).map fun xj => some (twoProd rn xj (yi.val ρ).v).1)
      (by simp [nums, hl])
    rw [← e1] at l1 l2
    simp only [List.length_map] at l1 l2
    have l3 : e.length = x.length := by simpa [nums] using congrArg List.length e2
    have fs : Elems C (ins ++ M) D (s1.tail ++ [.int 0]) := by
      intro a ha
      rcases List.mem_append.mp ha with ha | ha
      · exact f1 a (List.mem_of_mem_tail ha)
      · rw [List.mem_singleton.mp ha]; exact elem_zero
    refine (drain_gives hr hsm hc x.length (s1.tail ++ [.int 0]) e [] fs f2).bind (fun _ => (grows_drain _ _ _).bind fun _ =>
      (grows_mulRounds _ _ _ _).bind fun _ => .pure _) (grows_drain _ _ _) ?_
    rintro s2 ⟨g2, e3⟩
    refine (drain_gives hr hsm hc x.length s2 ep [] g2 f3).bind (fun _ => (grows_mulRounds _ _ _ _).bind fun _ => .pure _)
      (grows_drain _ _ _) ?_
    rintro s3 ⟨g3, e4⟩
    have l4 : (s1.tail ++ [Ex.int 0]).length = x.length := by
      rw [List.length_append, List.length_tail, List.length_singleton]; omega
    have l5 : s2.length = x.length := by
      have := congrArg List.length e3
      rw [drain_length _ _ _ _ (by simp only [List.length_map]; omega)] at this
      simpa only [List.length_map, l4] using this
    have l6 : s3.length = x.length := by
      have := congrArg List.length e4
      rw [drain_length _ _ _ _ (by simp only [List.length_map]; omega)] at this
      simpa only [List.length_map, l5] using this
    refine (ih s3 (fun e he => hy e (by simp [he])) g3 l6).bind (fun _ => .pure _) (grows_mulRounds _ _ _ _) ?_
    rintro q ⟨gq, e5⟩
    have fh : Elem C (ins ++ M) D (s1.headD (.int 0)) := by
      cases s1 with
      | nil => exact elem_zero
      | cons a s1 => exact f1 a (by simp)
    refine .pure ⟨elems_cons.mpr ⟨fh, gq⟩, ?_⟩
    have h1 : (Float.mulRound rn (nums ρ x) (yi.val ρ).v (s.map (toSc ρ))).1 = s3.map (toSc ρ) := by
      rw [e4, e3, e2]
      simp only [Float.mulRound, List.map_map, Function.comp_def] at e1 ⊢
      rw [← e1]
      simp only [List.map_append, List.map_tail, List.map_cons, List.map_nil, toSc_zero]
      rw [show (nums ρ x).length = x.length from List.length_map ..]
    have h2 : (Float.mulRound rn (nums ρ x) (yi.val ρ).v (s.map (toSc ρ))).2.1 = toSc ρ (s1.headD (.int 0)) := by
      simp only [Float.mulRound, List.map_map, Function.comp_def] at e1 ⊢
      rw [← e1]
      cases s1 <;> rfl
    rw [List.map_cons, e5, show nums ρ (yi :: y) = (yi.val ρ).v :: nums ρ y from rfl, Float.mulRounds]
    simp only
    rw [h1, h2]

theorem collangeMul_gives (hr : Symmetric rn) (hf : Fused ρ) (hsm : NoSmall C M) (hc : NoClash C ρ M) (w : Sg) {x y : List Ex}
    (hx : ∀ e ∈ x, Fine C (ins ++ M) D e) (hy : ∀ e ∈ y, Fine C (ins ++ M) D e) :
    Gives C ins M D (collangeMulX C w x y) fun r => Elems C (ins ++ M) D r ∧ Float.collangeMul rn (nums ρ x) (nums ρ y) = .ok (nums ρ r) := by
  unfold collangeMulX
  refine assert_gives fun hl => ?_
  have hrep : ∀ n : ℕ, (List.replicate n (Ex.int 0)).map (toSc ρ) = List.replicate n none := fun n => by rw [List.map_replicate]; rfl
  have key : Gives C ins M D (mulRoundsX C w x y (List.replicate x.length (.int 0))) fun r => Elems C (ins ++ M) D r ∧
      r.map (toSc ρ) = (Float.mulRounds rn (nums ρ x) (nums ρ y) (List.replicate x.length none)).2.1 := by
    rcases Nat.eq_zero_or_pos x.length with h0 | h0
    · have hy0 : y = [] := List.length_eq_zero_iff.mp (hl.symm.trans h0)
      subst hy0
      exact .pure ⟨by simp [Elems], rfl⟩
    · rw [← hrep]
      exact mulRounds_gives hr hf hsm hc w hx h0 y _ hy (fun e he => by rw [List.eq_of_mem_replicate he]; exact elem_zero) (by simp)
  refine key.bind (fun _ => (Grows.ofRes _).bind fun _ => .pure _) (grows_mulRounds _ _ _ _) ?_
  rintro q ⟨fq, eq⟩
  refine assert_gives fun hq => .pure ⟨fq, ?_⟩
  have h1 : (nums ρ x).length = (nums ρ y).length := by simpa [nums] using hl
  have h3 : (nums ρ x).length = x.length := List.length_map ..
  simp only [Float.collangeMul]
  rw [slowAssert_true h1, h3, ← eq, slowAssert_true (by rw [List.length_map]; exact hq)]
  show Except.ok _ = Except.ok _
  congr 1
  rw [List.map_map, nums]
  exact List.map_congr_left fun e he => sc_val (fq e he)

/-! ## The lines -/

theorem computeAll_step {C : Cfg} {ρ : Interp (Fl rn)} {U : Ex → Prop}
    (hU : ∀ e e', U e → U e' → e.sig C = e'.sig C → e.val ρ = e'.val ρ) :
    ∀ (l : List Ex) {B : Blk} {r : List Ex × Blk}, Inv C ρ U B → (∀ x ∈ l, ∀ e ∈ x.subs, U e) →
      (∀ x ∈ l, ∀ v ∈ x.vars, v ∈ inputs B.code) → computeAll C l B = .ok r →
      Inv C ρ U r.2 ∧ Ext B r.2 ∧ (∀ y ∈ r.1, ∀ v ∈ y.vars, v ∈ declared r.2.code) ∧
        ∀ env, r.1.map (Ex.val (withVar ρ (after ρ r.2.code env))) = l.map (Ex.val ρ) := by
  intro l
  induction l with
  | nil =>
    intro B r hi _ _ e
    cases e
    exact ⟨hi, Ext.refl B, by simp, fun _ => rfl⟩
  | cons x l ih =>
    intro B r hi hs hv e
    unfold computeAll at e
    obtain ⟨a, ha, e⟩ := Ser.bind_eq_ok e
    obtain ⟨q, hq, e⟩ := Ser.bind_eq_ok e
    cases e
    have h1 := compute_step hU x hi (hs x (by simp)) (hv x (by simp)) ha
    obtain ⟨i2, e2, v2, o2⟩ := ih h1.inv (fun z hz => hs z (by simp [hz])) (fun z hz v hzv => by
      rw [h1.ext.inputs]; exact hv z (by simp [hz]) v hzv) hq
    obtain ⟨l1, l2⟩ := h1.later e2 i2
    refine ⟨i2, h1.ext.trans e2, ?_, fun env => ?_⟩
    · intro y hy
      rcases List.mem_cons.mp hy with rfl | hy
      exacts [l1, v2 y hy]
    · simp only [List.map_cons]
      rw [l2 env, o2 env]

end

end Mandelbrot.Sym
