import Verif.Series.AliasHistory

/-!
# How the series functions fail

A function on copies fails only by an assertion.
-/

set_option linter.unusedSectionVars false

namespace Mandelbrot

/-- The only failure is an assertion. -/
def Throws {A : Type} (r : Res A) : Prop := ∀ e, r = .error e → e = .assertion

namespace Throws

theorem ok {A : Type} (a : A) : Throws (.ok a) := fun _ h => by cases h
theorem pure {A : Type} (a : A) : Throws (Pure.pure a) := ok a
theorem assert (P : Prop) [Decidable P] : Throws (slowAssert P) := by
  intro e h
  unfold slowAssert at h
  split_ifs at h
  cases h
  rfl

theorem bind {A B : Type} {x : Res A} {f : A → Res B} (hx : Throws x) (hf : ∀ a, Throws (f a)) : Throws (x >>= f) := by
  intro e h
  cases x with
  | error e' => cases h; exact hx e rfl
  | ok a => exact hf a e h

theorem map {A B : Type} {x : Res A} {f : A → B} (hx : Throws x) : Throws (x.map f) := by
  intro e h
  cases x with
  | error e' => cases h; exact hx e rfl
  | ok a => cases h

end Throws

/-- Kernels that fail only by an assertion. -/
structure Ker.Throws {K : Type} (ker : Ker K) : Prop where
  mul : ∀ n x y, Mandelbrot.Throws (ker.mul n x y)
  addmul : ∀ n x y, Mandelbrot.Throws (ker.addmul n x y)
  sqr : ∀ n x, Mandelbrot.Throws (ker.sqr n x)
  invBase : ∀ y x, Mandelbrot.Throws (ker.invBase y x)
  expBase : ∀ y x, Mandelbrot.Throws (ker.expBase y x)

theorem newtonIterate_throws {σ : Type} {step : ℤ → ℤ → Bool → σ → Res σ} (h : ∀ m0 m r s, Throws (step m0 m r s)) (n0 n : ℤ)
    (s : σ) : Throws (newtonIterate step n0 n s) := by
  unfold newtonIterate
  split_ifs with hn
  · exact .ok _
  · clear hn
    refine .bind (.assert _) fun _ => .bind (.bind (.assert _) fun _ => .pure _) fun k => ?_
    generalize 2 * k = l
    induction l generalizing n0 s with
    | zero => exact .ok _
    | succ l ih => exact .bind (h _ _ _ _) fun _ => ih _ _

namespace Ser

variable {K : Type}

theorem setCounts_throws (y : Ser K) (k z : ℤ) : Throws (y.setCounts k z) := .bind (.assert _) fun _ => .pure _
theorem setKnown_throws (y : Ser K) (k : ℤ) : Throws (y.setKnown k) := .bind (.assert _) fun _ => .pure _
theorem setScalar_throws (y : Ser K) (k : ℤ) (a : K) : Throws (y.setScalar k a) := .bind (.assert _) fun _ => .pure _
theorem assign_throws (y x : Ser K) : Throws (y.assign x) := .bind (.assert _) fun _ => .pure _

variable [Zero K] [One K] [Add K] [Sub K] [Neg K] [Mul K] [Div K] [IntCast K] [Ldexp K] [DecidableEq K] {ker : Ker K}

theorem addScalar_throws (y : Ser K) (a : K) : Throws (y.addScalar a) := .bind (.assert _) fun _ => .pure _
theorem addsub_throws (y : Ser K) (sign b s : ℤ) (x : Ser K) : Throws (y.highAddsubLdexp sign b s x) :=
  .bind (.assert _) fun _ => setCounts_throws _ _ _
theorem neg_throws (y x : Ser K) : Throws (neg y x) := .bind (setCounts_throws _ _ _) fun _ => .pure _
theorem derivativeShift_throws (y x : Ser K) (s : ℤ) : Throws (derivativeShift y x s) :=
  .bind (setCounts_throws _ _ _) fun _ => .pure _
theorem integralShift_throws (y x : Ser K) (s : ℤ) : Throws (integralShift y x s) :=
  .bind (setCounts_throws _ _ _) fun _ => .pure _
theorem ldexpSer_throws (y x : Ser K) (s : ℤ) : Throws (ldexpSer y x s) := .bind (setCounts_throws _ _ _) fun _ => .pure _

section
variable (h : ker.Throws)
include h

theorem mul_throws (z x y : Ser K) : Throws (mul ker z x y) :=
  .bind (setCounts_throws _ _ _) fun _ => .bind (h.mul _ _ _) fun _ => .pure _
theorem mul1p_throws (z x y : Ser K) (s : ℤ) : Throws (mul1p ker z x y s) :=
  .bind (.assert _) fun _ => .bind (setCounts_throws _ _ _) fun _ => .bind (h.addmul _ _ _) fun _ => .pure _
theorem sqr_throws (y x : Ser K) : Throws (sqr ker y x) :=
  .bind (setCounts_throws _ _ _) fun _ => .bind (h.sqr _ _) fun _ => .pure _

theorem inv_throws (J : Junk K) (y x : Ser K) : Throws (inv ker J y x) := by
  rw [inv]
  split_ifs
  · exact .pure _
  · refine .bind (.assert _) fun _ => .bind (h.invBase _ _) fun _ => .bind (newtonIterate_throws (fun m0 m r s => ?_) _ _ _)
      fun _ => .pure _
    exact .bind (setKnown_throws _ _) fun _ => .bind (mul_throws h _ _ _) fun _ => .bind (addScalar_throws _ _) fun _ =>
      .bind (mul_throws h _ _ _) fun _ => .bind (addsub_throws _ _ _ _ _) fun _ => .pure _

theorem inv1p_throws (J : Junk K) (y x : Ser K) (s : ℤ) : Throws (inv1p ker J y x s) := by
  rw [inv1p]
  split_ifs
  · exact .pure _
  · refine .bind (.assert _) fun _ => .bind (neg_throws _ _) fun _ => .bind (newtonIterate_throws (fun m0 m r s => ?_) _ _ _)
      fun _ => .pure _
    exact .bind (setKnown_throws _ _) fun _ => .bind (mul1p_throws h _ _ _ _) fun _ => .bind (addsub_throws _ _ _ _ _) fun _ =>
      .bind (mul1p_throws h _ _ _ _) fun _ => .bind (addsub_throws _ _ _ _ _) fun _ => .pure _

theorem div_throws (J : Junk K) (y a b : Ser K) : Throws (div ker J y a b) :=
  .bind (inv_throws h _ _ _) fun _ => .bind (mul_throws h _ _ _) fun _ => .bind (mul_throws h _ _ _) fun _ =>
    .bind (addsub_throws _ _ _ _ _) fun _ => .bind (mul_throws h _ _ _) fun _ => addsub_throws _ _ _ _ _

theorem div1p_throws (J : Junk K) (y a b : Ser K) (s : ℤ) : Throws (div1p ker J y a b s) :=
  .bind (.assert _) fun _ => .bind (inv1p_throws h _ _ _ _) fun _ => .bind (mul1p_throws h _ _ _ _) fun _ =>
    .bind (mul1p_throws h _ _ _ _) fun _ => .bind (addsub_throws _ _ _ _ _) fun _ => .bind (mul1p_throws h _ _ _ _) fun _ =>
      addsub_throws _ _ _ _ _

theorem log_throws (J : Junk K) (y x : Ser K) : Throws (log ker J y x) := by
  have main : Throws (derivativeShift (Ser.new x.known (J [0])) x 0 >>= fun dx => div ker (J.sub 1) y dx x >>= fun y =>
      integralShift y y 0) :=
    .bind (derivativeShift_throws _ _ _) fun _ => .bind (div_throws h _ _ _ _) fun _ => integralShift_throws _ _ _
  rw [log]
  split_ifs
  · exact .pure _
  · exact .bind (.assert _) fun _ => .bind (.assert _) fun _ => main
  · exact .bind (.assert _) fun _ => main

theorem log1p_throws (J : Junk K) (y x : Ser K) (s : ℤ) : Throws (log1p ker J y x s) := by
  rw [log1p]
  split_ifs
  · exact .pure _
  · exact .bind (.assert _) fun _ => .bind (derivativeShift_throws _ _ _) fun _ => .bind (div1p_throws h _ _ _ _ _) fun _ =>
      integralShift_throws _ _ _

theorem exp_throws (J : Junk K) (y x : Ser K) : Throws (exp ker J y x) := by
  have main : Throws (ker.expBase y x >>= fun y => newtonIterate (expStep ker (J.sub 1) x) y.known x.known (y, Ser.new x.known (J [0]))
        >>= fun st => pure st.1) := by
    refine .bind (h.expBase _ _) fun _ => .bind (newtonIterate_throws (fun m0 m r s => ?_) _ _ _) fun _ => .pure _
    exact .bind (setKnown_throws _ _) fun _ => .bind (log_throws h _ _ _) fun _ => .bind (addsub_throws _ _ _ _ _) fun _ =>
      .bind (mul_throws h _ _ _) fun _ => .bind (addsub_throws _ _ _ _ _) fun _ => .pure _
  rw [exp]
  split_ifs
  · exact .pure _
  · exact .bind (.assert _) fun _ => main
  · exact main

theorem expm1_throws (J : Junk K) (y x : Ser K) (a s : ℤ) : Throws (expm1 ker J y x a s) := by
  have main : ∀ y : Ser K, Throws (newtonIterate (expm1Step ker (J.sub 1) x a s) y.known x.known (y, Ser.new x.known (J [0]))
        >>= fun st => pure st.1) := by
    intro y
    refine .bind (newtonIterate_throws (fun m0 m r st => ?_) _ _ _) fun _ => .pure _
    rw [expm1Step]
    refine .bind (setKnown_throws _ _) fun _ => .bind (log1p_throws h _ _ _ _) fun _ => ?_
    have tail : ∀ y dy : Ser K, Throws (mul1p ker dy dy y s >>= fun dy => y.highSub m0 (dy.high m0) >>= fun y => pure (y, dy)) :=
      fun y dy => .bind (mul1p_throws h _ _ _ _) fun _ => .bind (addsub_throws _ _ _ _ _) fun _ => .pure _
    split_ifs
    · exact .bind (addsub_throws _ _ _ _ _) (tail _)
    · exact .bind (addsub_throws _ _ _ _ _) (tail _)
  rw [expm1]
  refine .bind (.assert _) fun _ => ?_
  split_ifs
  · exact .bind (assign_throws _ _) main
  · exact .bind (neg_throws _ _) main

theorem log1pExp_throws (J : Junk K) (y x : Ser K) (s : ℤ) : Throws (log1pExp ker J y x s) := by
  rw [log1pExp]
  split_ifs
  · exact .pure _
  · refine .bind (.assert _) fun _ => .bind (exp_throws h _ _ _) fun _ => .bind (newtonIterate_throws (fun m0 m r st => ?_) _ _ _)
      fun _ => .pure _
    exact .bind (setKnown_throws _ _) fun _ => .bind (assign_throws _ _) fun _ => .bind (addsub_throws _ _ _ _ _) fun _ =>
      .bind (exp_throws h _ _ _) fun _ => .bind (expm1_throws h _ _ _ _ _) fun _ => .bind (addsub_throws _ _ _ _ _) fun _ =>
      .bind (addsub_throws _ _ _ _ _) fun _ => .pure _

end

end Ser

section
variable {K : Type} [Zero K] [One K] [Add K] [Sub K] [Neg K] [Mul K] [Div K] [IntCast K] [Ldexp K] [DecidableEq K]

theorem codeletKer_throws : (codeletKer : Ker K).Throws where
  mul _ _ _ := .ok _
  addmul _ _ _ := .ok _
  sqr _ _ := .ok _
  invBase _ _ := .bind (Ser.setCounts_throws _ _ _) fun _ => .pure _
  expBase _ _ := .bind (Ser.setCounts_throws _ _ _) fun _ => .pure _

theorem serialBase_throws (l : ℕ) {set : Junk K → Ser K → Ser K → Res (Ser K)} (h : ∀ J y x, Throws (set J y x)) (J : Junk K)
    (y x : Ser K) : Throws (serialBase l set J y x) := by
  rw [serialBase]
  refine .bind (Ser.setCounts_throws _ _ _) fun _ => ?_
  split_ifs
  · exact .bind (h _ _ _) fun _ => .pure _
  · exact .pure _

theorem invBaseBody_throws (J : Junk K) (y x : Ser K) : Throws (invBaseBody J y x) := by
  rw [invBaseBody]
  exact .bind (Ser.setScalar_throws _ _ _) fun _ => .bind (Ser.mul_throws codeletKer_throws _ _ _) fun _ =>
    .bind (Ser.inv_throws codeletKer_throws _ _ _) fun _ => Ser.mul_throws codeletKer_throws _ _ _

theorem hostKer_throws (B : Junk K) {mul addmul : ℕ → Span K → Span K → Res (ℕ → K)} {sqr : ℕ → Span K → Res (ℕ → K)}
    (h1 : ∀ n x y, Throws (mul n x y)) (h2 : ∀ n x y, Throws (addmul n x y)) (h3 : ∀ n x, Throws (sqr n x)) :
    (hostKer B mul addmul sqr).Throws where
  mul := h1
  addmul := h2
  sqr := h3
  invBase y x := serialBase_throws 0 invBaseBody_throws (B.sub 0) y x
  expBase y x := serialBase_throws 1 (fun J y x => Ser.exp_throws codeletKer_throws J y x) (B.sub 1) y x

theorem codeletKer_keepsLimit : (codeletKer : Ker K).KeepsLimit := by
  have key : ∀ (f : K → K) {y x r : Ser K}, oneTermBase f y x = .ok r → r.limit = y.limit := by
    intro f y x r h
    rw [oneTermBase] at h
    obtain ⟨a, ha, h⟩ := Ser.bind_eq_ok h
    cases h
    obtain ⟨_, _, ha⟩ := Ser.bind_eq_ok ha
    cases ha
    rfl
  exact ⟨fun {_ x _} h => key (x := x) (fun x0 => 1 / x0) h, fun {_ x _} h => key (x := x) (fun _ => 1) h⟩

theorem hostKer_keepsLimit (B : Junk K) (mul addmul : ℕ → Span K → Span K → Res (ℕ → K)) (sqr : ℕ → Span K → Res (ℕ → K)) :
    (hostKer B mul addmul sqr).KeepsLimit := by
  have key : ∀ (l : ℕ) (set : Junk K → Ser K → Ser K → Res (Ser K)) (J : Junk K) {y x r : Ser K},
      serialBase l set J y x = .ok r → r.limit = y.limit := by
    intro l set J y x r h
    rw [serialBase] at h
    obtain ⟨a, ha, h⟩ := Ser.bind_eq_ok h
    obtain ⟨_, _, ha⟩ := Ser.bind_eq_ok ha
    cases ha
    split_ifs at h
    · obtain ⟨_, _, h⟩ := Ser.bind_eq_ok h
      cases h
      rfl
    · cases h
      rfl
  exact ⟨fun h => key _ _ _ h, fun h => key _ _ _ h⟩

namespace Heap

variable {N : ℕ} {ker : Ker K}

theorem vstep_throws (h : ker.Throws) (J : Junk K) (σ : Fin N → Ser K) (op : Op K N) : Throws (vstep ker J σ op) := by
  cases op with
  | construct => exact .ok _
  | constructList => exact .map (.bind (.assert _) fun _ => .pure _)
  | move => exact .ok _
  | swap => exact .ok _
  | clear => exact .ok _
  | copy => exact .map (Ser.assign_throws _ _)
  | setScalar => exact .map (Ser.setScalar_throws _ _ _)
  | setUnknown => exact .ok _
  | setKnown => exact .map (Ser.setKnown_throws _ _)
  | reduceKnown => exact .map (Ser.setKnown_throws _ _)
  | addScalar => exact .map (Ser.addScalar_throws _ _)
  | assign => exact .map (Ser.assign_throws _ _)
  | addsub => exact .map (Ser.addsub_throws _ _ _ _ _)
  | neg => exact .map (Ser.neg_throws _ _)
  | mul => exact .map (Ser.mul_throws h _ _ _)
  | mul1p => exact .map (Ser.mul1p_throws h _ _ _ _)
  | sqr => exact .map (Ser.sqr_throws h _ _)
  | inv => exact .map (Ser.inv_throws h _ _ _)
  | inv1p => exact .map (Ser.inv1p_throws h _ _ _ _)
  | div => exact .map (Ser.div_throws h _ _ _ _)
  | div1p => exact .map (Ser.div1p_throws h _ _ _ _ _)
  | derivativeShift => exact .map (Ser.derivativeShift_throws _ _ _)
  | integralShift => exact .map (Ser.integralShift_throws _ _ _)
  | log => exact .map (Ser.log_throws h _ _ _)
  | log1p => exact .map (Ser.log1p_throws h _ _ _ _)
  | exp => exact .map (Ser.exp_throws h _ _ _)
  | expm1 => exact .map (Ser.expm1_throws h _ _ _ _ _)
  | log1pExp => exact .map (Ser.log1pExp_throws h _ _ _ _)
  | ldexp => exact .map (Ser.ldexpSer_throws _ _ _)

theorem vrun_throws (h : ker.Throws) (ops : List (Junk K × Op K N)) : ∀ σ : Fin N → Ser K, Throws (vrun ker σ ops) := by
  induction ops with
  | nil => exact fun _ => .ok _
  | cons o ops ih => exact fun σ => .bind (vstep_throws h _ _ _) fun _ => ih _

end Heap

end

end Mandelbrot
