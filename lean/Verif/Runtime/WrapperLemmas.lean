import Verif.Spec.Wrapper
import Mathlib.Logic.Equiv.Basic

/-!
# Invariant of the wrappers
-/

namespace Mandelbrot.Wrap

open Function

variable {V : Type} {L : Lib V} {s : St V} {env : ℕ → Option V} {n : ℕ}

/-- An object is as its value says. -/
def Holds (L : Lib V) (heap : ℕ → Option (Cell V)) : Option (Raw V) → Option V → Prop
  | none, none => True
  | some (.here w), some v => w = v ∧ L.big v = false
  | some (.block a), some v => heap a = some (.num v) ∧ L.big v = true
  | _, _ => False

structure Inv (L : Lib V) (s : St V) (env : ℕ → Option V) (n : ℕ) : Prop where
  holds : ∀ o, Holds L s.heap (s.objs o) (env o)
  inj : ∀ o p a, s.objs o = some (.block a) → s.objs p = some (.block a) → o = p
  owned : ∀ a v, s.heap a = some (.num v) → ∃ o, s.objs o = some (.block a)
  top : ∀ a, s.next ≤ a → s.heap a = none
  texts : Set.ncard {a | s.heap a = some .text} = n

theorem Inv.some (h : Inv L s env n) {o : ℕ} {v : V} (e : env o = some v) : ∃ r, s.objs o = some r ∧ s.raw o = .ok r ∧ s.read r = .ok v := by
  have := h.holds o
  rw [e] at this
  unfold St.raw
  cases eo : s.objs o with
  | none => rw [eo] at this; exact this.elim
  | some r =>
    rw [eo] at this
    refine ⟨r, rfl, rfl, ?_⟩
    cases r with
    | here w => rw [St.read, this.1]
    | block a =>
      rw [St.read]
      simp only [this.1]

theorem Inv.none (h : Inv L s env n) {o : ℕ} (e : env o = none) : s.objs o = none ∧ s.raw o = .error .ub ∧ s.fresh o = .ok () := by
  have := h.holds o
  rw [e] at this
  cases eo : s.objs o with
  | none => simp [St.raw, St.fresh, eo]
  | some r => rw [eo] at this; cases r <;> exact this.elim

theorem Inv.notFresh (h : Inv L s env n) {o : ℕ} {v : V} (e : env o = Option.some v) : s.fresh o = .error .ub := by
  obtain ⟨r, h1, -⟩ := h.some e
  simp [St.fresh, h1]

theorem Inv.readAll (h : Inv L s env n) : ∀ os, s.readAll os = match Spec.valuesOf env os with
    | Option.some vs => .ok vs
    | Option.none => .error .ub
  | [] => rfl
  | o :: os => by
    rw [St.readAll, Spec.valuesOf, h.readAll os]
    cases e : env o with
    | none => rw [(h.none e).2.1]; rfl
    | some v =>
      obtain ⟨r, -, h2, h3⟩ := h.some e
      rw [h2]
      show (s.read r >>= _) = _
      rw [h3]
      cases Spec.valuesOf env os <;> rfl

/-- Changing the objects only: what they hold is permuted. -/
theorem Inv.fresh (h : Inv L s env n) (hz : L.big L.zero = false) {o : ℕ} (e : env o = Option.none) :
    Inv L (s.put o (Option.some (.here L.zero))) (update env o (Option.some L.zero)) n where
  holds p := by
    by_cases hp : p = o
    · subst hp; simp [St.put, Holds, hz]
    · simpa [St.put, hp] using h.holds p
  inj p q a h1 h2 := by
    simp only [St.put, update_apply] at h1 h2
    split at h1
    · cases h1
    · split at h2
      · cases h2
      · exact h.inj p q a h1 h2
  owned a v h1 := by
    obtain ⟨p, h2⟩ := h.owned a v h1
    refine ⟨p, ?_⟩
    have hp : p ≠ o := by
      rintro rfl
      rw [(h.none e).1] at h2
      cases h2
    simpa [St.put, hp] using h2
  top := h.top
  texts := h.texts

theorem holds_congr {H H' : ℕ → Option (Cell V)} {r : Option (Raw V)} {v : Option V} (h : Holds L H r v)
    (e : ∀ a, r = Option.some (.block a) → H' a = H a) : Holds L H' r v := by
  match r, v, h with
  | Option.none, Option.none, _ => trivial
  | Option.some (.here w), Option.some v, h => exact h
  | Option.some (.block a), Option.some v, h => exact ⟨by rw [e a rfl]; exact h.1, h.2⟩

/-- The heap after giving object `o` a value. -/
theorem Inv.set (h : Inv L s env n) {o : ℕ} {w : V} (e : env o = Option.some w) (v : V) :
    ∃ s', s.set L o v = .ok s' ∧ Inv L s' (update env o (Option.some v)) n := by
  obtain ⟨r, h1, h2, -⟩ := h.some e
  have hold := h.holds o
  rw [h1, e] at hold
  unfold St.set
  rw [h2]
  show ∃ s', (s.write L r v >>= _) = _ ∧ _
  unfold St.write
  cases hb : L.big v with
  | true =>
    rw [if_pos rfl]
    cases r with
    | here u =>
      refine ⟨_, rfl, ?_, ?_, ?_, ?_, ?_⟩
      · intro p
        by_cases hp : p = o
        · subst hp; simp [St.put, St.poke, Holds, hb]
        · simp only [St.put, St.poke, update_apply, if_neg hp]
          refine holds_congr (h.holds p) fun a ha => ?_
          have h3 := h.holds p
          rw [ha] at h3
          cases ep : env p with
          | none => rw [ep] at h3; exact h3.elim
          | some x =>
            rw [ep] at h3
            have : a ≠ s.next := by
              rintro rfl
              have := h.top _ le_rfl
              rw [h3.1] at this
              cases this
            simp only [update_apply, if_neg this]
      · intro p q a h3 h4
        have key : ∀ x, x ≠ o → s.objs x = Option.some (.block s.next) → False := by
          intro x _ hx
          have h5 := h.holds x
          rw [hx] at h5
          cases ex : env x with
          | none => rw [ex] at h5; exact h5
          | some y =>
            rw [ex] at h5
            have := h.top _ le_rfl
            rw [h5.1] at this
            cases this
        simp only [St.put, update_apply] at h3 h4
        by_cases hp : p = o
        · rw [if_pos hp] at h3
          simp only [Option.some.injEq, Raw.block.injEq] at h3
          subst h3
          by_cases hq : q = o
          · rw [hp, hq]
          · rw [if_neg hq] at h4
            exact (key q hq h4).elim
        · rw [if_neg hp] at h3
          by_cases hq : q = o
          · rw [if_pos hq] at h4
            simp only [Option.some.injEq, Raw.block.injEq] at h4
            subst h4
            exact (key p hp h3).elim
          · rw [if_neg hq] at h4
            exact h.inj p q a h3 h4
      · intro a x h3
        simp only [St.put, St.poke, update_apply] at h3 ⊢
        by_cases ha : a = s.next
        · exact ⟨o, by simp [ha]⟩
        · rw [if_neg ha] at h3
          obtain ⟨p, h4⟩ := h.owned a x h3
          refine ⟨p, ?_⟩
          rw [if_neg]
          · exact h4
          · rintro rfl
            rw [h1] at h4
            cases h4
      · intro a ha
        have ha : s.next + 1 ≤ a := ha
        simp only [St.put, St.poke, update_apply]
        rw [if_neg (by omega)]
        exact h.top a (by omega)
      · rw [← h.texts]
        congr 1
        ext a
        simp only [St.put, St.poke, update_apply, Set.mem_ofPred_eq]
        by_cases ha : a = s.next
        · subst ha
          simp [h.top _ le_rfl]
        · simp [ha]
    | block b =>
      have hb' : s.heap b = Option.some (.num w) := hold.1
      simp only [hb']
      refine ⟨_, rfl, ?_, ?_, ?_, ?_, ?_⟩
      · intro p
        by_cases hp : p = o
        · subst hp; simp [St.put, St.poke, Holds, hb]
        · simp only [St.put, St.poke, update_apply, if_neg hp]
          refine holds_congr (h.holds p) fun a ha => ?_
          have : a ≠ b := by
            rintro rfl
            exact hp (h.inj _ _ _ ha h1)
          simp only [update_apply, if_neg this]
      · intro p q a h3 h4
        have key : ∀ x, (update s.objs o (Option.some (Raw.block b))) x = s.objs x := by
          intro x
          by_cases hx : x = o
          · subst hx; simp [h1]
          · simp [hx]
        exact h.inj p q a (by rw [← key]; exact h3) (by rw [← key]; exact h4)
      · intro a x h3
        simp only [St.put, St.poke, update_apply] at h3 ⊢
        by_cases ha : a = b
        · exact ⟨o, by simp [ha]⟩
        · rw [if_neg ha] at h3
          obtain ⟨p, h4⟩ := h.owned a x h3
          refine ⟨p, ?_⟩
          rw [if_neg]
          · exact h4
          · rintro rfl
            rw [h1] at h4
            cases h4
            exact ha rfl
      · intro a ha
        have ha : s.next ≤ a := ha
        simp only [St.put, St.poke, update_apply]
        rw [if_neg]
        · exact h.top a ha
        · rintro rfl
          rw [h.top _ ha] at hb'
          cases hb'
      · rw [← h.texts]
        congr 1
        ext a
        simp only [St.put, St.poke, update_apply, Set.mem_ofPred_eq]
        by_cases ha : a = b
        · subst ha
          simp [hb']
        · simp [ha]
  | false =>
    rw [if_neg (by simp)]
    cases r with
    | here u =>
      refine ⟨_, rfl, ?_, ?_, ?_, h.top, h.texts⟩
      · intro p
        by_cases hp : p = o
        · subst hp; simp [St.put, Holds, hb]
        · simpa [St.put, hp] using h.holds p
      · intro p q a h3 h4
        simp only [St.put, update_apply] at h3 h4
        split at h3
        · cases h3
        · split at h4
          · cases h4
          · exact h.inj p q a h3 h4
      · intro a x h3
        obtain ⟨p, h4⟩ := h.owned a x h3
        refine ⟨p, ?_⟩
        have hp : p ≠ o := by
          rintro rfl
          rw [h1] at h4
          cases h4
        simpa [St.put, hp] using h4
    | block b =>
      have hb' : s.heap b = Option.some (.num w) := hold.1
      simp only [St.clear, hb']
      refine ⟨_, rfl, ?_, ?_, ?_, ?_, ?_⟩
      · intro p
        by_cases hp : p = o
        · subst hp; simp [St.put, St.poke, Holds, hb]
        · simp only [St.put, St.poke, update_apply, if_neg hp]
          refine holds_congr (h.holds p) fun a ha => ?_
          have : a ≠ b := by
            rintro rfl
            exact hp (h.inj _ _ _ ha h1)
          simp only [update_apply, if_neg this]
      · intro p q a h3 h4
        simp only [St.put, update_apply] at h3 h4
        split at h3
        · cases h3
        · split at h4
          · cases h4
          · exact h.inj p q a h3 h4
      · intro a x h3
        simp only [St.put, St.poke, update_apply] at h3 ⊢
        by_cases ha : a = b
        · rw [if_pos ha] at h3; cases h3
        · rw [if_neg ha] at h3
          obtain ⟨p, h4⟩ := h.owned a x h3
          refine ⟨p, ?_⟩
          rw [if_neg]
          · exact h4
          · rintro rfl
            rw [h1] at h4
            cases h4
            exact ha rfl
      · intro a ha
        have ha : s.next ≤ a := ha
        simp only [St.put, St.poke, update_apply]
        rw [h.top a ha]
        split <;> rfl
      · rw [← h.texts]
        congr 1
        ext a
        simp only [St.put, St.poke, update_apply, Set.mem_ofPred_eq]
        by_cases ha : a = b
        · subst ha
          simp [hb']
        · simp [ha]

theorem Inv.perm (h : Inv L s env n) (σ : Equiv.Perm ℕ) : Inv L { s with objs := s.objs ∘ σ } (env ∘ σ) n where
  holds o := h.holds (σ o)
  inj o p a h1 h2 := σ.injective (h.inj _ _ a h1 h2)
  owned a v h1 := by
    obtain ⟨o, h2⟩ := h.owned a v h1
    exact ⟨σ.symm o, by simpa using h2⟩
  top := h.top
  texts := h.texts

theorem put_swap {α : Type} (f : ℕ → Option α) (o p : ℕ) : update (update f o (f p)) p (f o) = f ∘ Equiv.swap o p := by
  funext x
  simp only [update_apply, Function.comp_apply, Equiv.swap_apply_def]
  by_cases h1 : x = p
  · subst h1
    by_cases h2 : x = o
    · subst h2; simp
    · simp [h2]
  · by_cases h2 : x = o
    · subst h2; simp [h1]
    · simp [h1, h2]

theorem Inv.destroy (h : Inv L s env n) {o : ℕ} {w : V} (e : env o = Option.some w) :
    ∃ s', step L s (.destroy o) = .ok s' ∧ Inv L s' (update env o Option.none) n := by
  obtain ⟨r, h1, h2, -⟩ := h.some e
  have hold := h.holds o
  rw [h1, e] at hold
  rw [step, h2]
  show ∃ s', (s.clear r >>= _) = _ ∧ _
  cases r with
  | here u =>
    refine ⟨_, rfl, ?_, ?_, ?_, h.top, h.texts⟩
    · intro p
      by_cases hp : p = o
      · subst hp; simp [St.put, Holds]
      · simpa [St.put, hp] using h.holds p
    · intro p q a h3 h4
      simp only [St.put, update_apply] at h3 h4
      split at h3
      · cases h3
      · split at h4
        · cases h4
        · exact h.inj p q a h3 h4
    · intro a x h3
      obtain ⟨p, h4⟩ := h.owned a x h3
      refine ⟨p, ?_⟩
      have hp : p ≠ o := by
        rintro rfl
        rw [h1] at h4
        cases h4
      simpa [St.put, hp] using h4
  | block b =>
    have hb' : s.heap b = Option.some (.num w) := hold.1
    simp only [St.clear, hb']
    refine ⟨_, rfl, ?_, ?_, ?_, ?_, ?_⟩
    · intro p
      by_cases hp : p = o
      · subst hp; simp [St.put, St.poke, Holds]
      · simp only [St.put, St.poke, update_apply, if_neg hp]
        refine holds_congr (h.holds p) fun a ha => ?_
        have : a ≠ b := by
          rintro rfl
          exact hp (h.inj _ _ _ ha h1)
        simp only [update_apply, if_neg this]
    · intro p q a h3 h4
      simp only [St.put, update_apply] at h3 h4
      split at h3
      · cases h3
      · split at h4
        · cases h4
        · exact h.inj p q a h3 h4
    · intro a x h3
      simp only [St.put, St.poke, update_apply] at h3 ⊢
      by_cases ha : a = b
      · rw [if_pos ha] at h3; cases h3
      · rw [if_neg ha] at h3
        obtain ⟨p, h4⟩ := h.owned a x h3
        refine ⟨p, ?_⟩
        rw [if_neg]
        · exact h4
        · rintro rfl
          rw [h1] at h4
          cases h4
          exact ha rfl
    · intro a ha
      have ha : s.next ≤ a := ha
      simp only [St.put, St.poke, update_apply]
      rw [h.top a ha]
      split <;> rfl
    · rw [← h.texts]
      congr 1
      ext a
      simp only [St.put, St.poke, update_apply, Set.mem_ofPred_eq]
      by_cases ha : a = b
      · subst ha
        simp [hb']
      · simp [ha]

theorem Inv.finite (h : Inv L s env n) : {a | s.heap a ≠ Option.none}.Finite := by
  refine (Set.finite_lt_nat s.next).subset fun a ha => ?_
  rw [Set.mem_ofPred_eq]
  by_contra hc
  exact ha (h.top a (by omega))

theorem Inv.texts_finite (h : Inv L s env n) : {a | s.heap a = Option.some .text}.Finite :=
  h.finite.subset fun a ha => by
    rw [Set.mem_ofPred_eq] at ha
    simp [ha]

/-- A new block with text. -/
theorem Inv.print (h : Inv L s env n) :
    Inv L { s.poke s.next (Option.some .text) with next := s.next + 1 } env (n + 1) := by
  have hn := h.top _ le_rfl
  refine ⟨fun o => holds_congr (h.holds o) fun a ha => ?_, h.inj, fun a v h1 => ?_, fun a ha => ?_, ?_⟩
  · have ha : s.objs o = Option.some (.block a) := ha
    have h3 := h.holds o
    rw [ha] at h3
    cases eo : env o with
    | none => rw [eo] at h3; exact h3.elim
    | some x =>
      rw [eo] at h3
      have : a ≠ s.next := by
        rintro rfl
        rw [h3.1] at hn
        cases hn
      simp only [St.poke, update_apply, if_neg this]
  · simp only [St.poke, update_apply] at h1
    split at h1
    · cases h1
    · exact h.owned a v h1
  · have ha : s.next + 1 ≤ a := ha
    simp only [St.poke, update_apply]
    rw [if_neg (by omega)]
    exact h.top a (by omega)
  · have e : {a | ({ s.poke s.next (Option.some .text) with next := s.next + 1 } : St V).heap a = Option.some .text} =
        insert s.next {a | s.heap a = Option.some .text} := by
      ext a
      simp only [St.poke, update_apply, Set.mem_ofPred_eq, Set.mem_insert_iff]
      by_cases ha : a = s.next <;> simp [ha]
    rw [e, Set.ncard_insert_of_notMem _ h.texts_finite, h.texts]
    rw [Set.mem_ofPred_eq, hn]
    simp

/-- A block with text that is freed again. -/
theorem Inv.safe (h : Inv L s env n) :
    Inv L (({ s.poke s.next (Option.some .text) with next := s.next + 1 } : St V).poke s.next Option.none) env n := by
  have hn := h.top _ le_rfl
  have e : (({ s.poke s.next (Option.some .text) with next := s.next + 1 } : St V).poke s.next Option.none).heap = s.heap := by
    funext a
    simp only [St.poke, update_apply]
    by_cases ha : a = s.next
    · simp [ha, hn]
    · simp [ha]
  refine ⟨fun o => ?_, h.inj, fun a v h1 => ?_, fun a ha => ?_, ?_⟩
  · rw [e]; exact h.holds o
  · rw [e] at h1; exact h.owned a v h1
  · rw [e]
    have ha : s.next + 1 ≤ a := ha
    exact h.top a (by omega)
  · rw [e]; exact h.texts

theorem inv_empty : Inv L (St.empty : St V) (fun _ => Option.none) 0 :=
  { holds := fun _ => trivial
    inj := fun _ _ _ h => by simp [St.empty] at h
    owned := fun _ _ h => by simp [St.empty] at h
    top := fun _ _ => rfl
    texts := by simp [St.empty] }

/-- One operation: it does to the values what the specification says, or is undefined where that has none. -/
theorem Inv.step (hz : L.big L.zero = false) (h : Inv L s env n) (p : Op V) : match Spec.valueStep L.zero env p with
    | Option.some env' => ∃ s', Wrap.step L s p = .ok s' ∧ Inv L s' env' (n + Spec.prints [p])
    | Option.none => Wrap.step L s p = .error .ub := by
  cases p with
  | make o =>
    rw [Spec.valueStep, Wrap.step]
    cases e : env o with
    | none => rw [(h.none e).2.2]; exact ⟨_, rfl, h.fresh hz e⟩
    | some v => rw [h.notFresh e]; rfl
  | convert o p =>
    rw [Spec.valueStep, Wrap.step]
    cases e : env o with
    | some v => rw [h.notFresh e]; rfl
    | none =>
      rw [(h.none e).2.2]
      cases ep : env p with
      | none =>
        show (s.raw p >>= _) = _
        rw [(h.none ep).2.1]; rfl
      | some v =>
        obtain ⟨r, -, h2, h3⟩ := h.some ep
        obtain ⟨s', h4, h5⟩ := (h.fresh hz e).set (o := o) (w := L.zero) (by simp) v
        refine ⟨s', ?_, ?_⟩
        · show (s.raw p >>= _) = _
          rw [h2]
          show (s.read r >>= _) = _
          rw [h3]
          exact h4
        · rw [update_idem] at h5
          exact h5
  | moved o p =>
    rw [Spec.valueStep, Wrap.step]
    cases e : env o with
    | some v => rw [h.notFresh e]; rfl
    | none =>
      rw [(h.none e).2.2]
      cases ep : env p with
      | none =>
        show (s.raw p >>= _) = _
        rw [(h.none ep).2.1]; rfl
      | some v =>
        obtain ⟨r, h1, h2, -⟩ := h.some ep
        have hne : p ≠ o := by
          rintro rfl
          rw [e] at ep
          cases ep
        have h5 := (h.perm (Equiv.swap o p)).fresh hz (o := p) (by simp [e])
        refine ⟨_, by show (s.raw p >>= _) = _; rw [h2]; rfl, ?_⟩
        have e1 : update (env ∘ Equiv.swap o p) p (Option.some L.zero) =
            update (update env o (Option.some v)) p (Option.some L.zero) := by
          rw [← put_swap, update_idem, ep]
        have e2 : ({ s with objs := s.objs ∘ Equiv.swap o p } : St V).put p (Option.some (.here L.zero)) =
            (s.put o (Option.some r)).put p (Option.some (.here L.zero)) := by
          simp only [St.put]
          rw [← put_swap, update_idem, h1]
        rw [e1, e2] at h5
        exact h5
  | destroy o =>
    rw [Spec.valueStep]
    cases e : env o with
    | none =>
      show (s.raw o >>= _) = _
      rw [(h.none e).2.1]; rfl
    | some v => exact h.destroy e
  | call o args f =>
    rw [Spec.valueStep, Wrap.step, h.readAll]
    cases Spec.valuesOf env args with
    | none => rfl
    | some vs =>
      cases e : env o with
      | none =>
        show (s.raw o >>= _) = _
        rw [(h.none e).2.1]; rfl
      | some v => exact h.set e (f vs)
  | assign o p =>
    rw [Spec.valueStep, Wrap.step]
    cases ep : env p with
    | none => rw [(h.none ep).2.1]; rfl
    | some v =>
      obtain ⟨r, -, h2, h3⟩ := h.some ep
      rw [h2]
      cases e : env o with
      | none =>
        show (s.read r >>= _) = _
        rw [h3]
        show (s.raw o >>= _) = _
        rw [(h.none e).2.1]; rfl
      | some w =>
        obtain ⟨s', h4, h5⟩ := h.set e v
        refine ⟨s', ?_, h5⟩
        show (s.read r >>= _) = _
        rw [h3]
        exact h4
  | moveAssign o p =>
    rw [Spec.valueStep, Wrap.step]
    cases ep : env p with
    | none =>
      cases e : env o with
      | none => rw [(h.none e).2.1]; rfl
      | some w =>
        obtain ⟨r, h1, h2, h3⟩ := h.some e
        rw [h2]
        show (s.raw p >>= _) = _
        rw [(h.none ep).2.1]; rfl
    | some v =>
      obtain ⟨q, h1', h2', h3'⟩ := h.some ep
      cases e : env o with
      | none => rw [(h.none e).2.1]; rfl
      | some w =>
        obtain ⟨r, h1, h2, h3⟩ := h.some e
        obtain ⟨s', h4, h5⟩ := (h.perm (Equiv.swap o p)).set (o := p) (w := w) (by simp [e]) L.zero
        have e1 : update (env ∘ Equiv.swap o p) p (Option.some L.zero) =
            update (update env o (Option.some v)) p (Option.some L.zero) := by
          rw [← put_swap, update_idem, ep]
        have e2 : ({ s with objs := s.objs ∘ Equiv.swap o p } : St V) = (s.put o (Option.some q)).put p (Option.some r) := by
          simp only [St.put]
          rw [← put_swap, h1, h1']
        rw [e1] at h5
        rw [e2] at h4
        refine ⟨s', ?_, h5⟩
        rw [h2]
        show (s.raw p >>= _) = _
        rw [h2']
        exact h4
  | print o =>
    rw [Spec.valueStep, Wrap.step]
    cases e : env o with
    | none => rw [(h.none e).2.1]; rfl
    | some v =>
      obtain ⟨r, -, h2, h3⟩ := h.some e
      rw [h2]
      refine ⟨_, ?_, h.print⟩
      show (s.read r >>= _) = _
      rw [h3]
      rfl
  | safe o =>
    rw [Spec.valueStep, Wrap.step]
    cases e : env o with
    | none => rw [(h.none e).2.1]; rfl
    | some v =>
      obtain ⟨r, -, h2, h3⟩ := h.some e
      rw [h2]
      refine ⟨_, ?_, h.safe⟩
      show (s.read r >>= _) = _
      rw [h3]
      rfl

theorem Inv.run (hz : L.big L.zero = false) : ∀ (ps : List (Op V)) {s : St V} {env : ℕ → Option V} {n : ℕ}, Inv L s env n →
    match Spec.valueRun L.zero env ps with
    | Option.some env' => ∃ s', Wrap.run L s ps = .ok s' ∧ Inv L s' env' (n + Spec.prints ps)
    | Option.none => Wrap.run L s ps = .error .ub
  | [], s, env, n, h => ⟨s, rfl, h⟩
  | p :: ps, s, env, n, h => by
    have h1 := h.step hz p
    rw [Spec.valueRun, Wrap.run]
    cases e : Spec.valueStep L.zero env p with
    | none =>
      rw [e] at h1
      rw [h1]; rfl
    | some env1 =>
      rw [e] at h1
      obtain ⟨s1, h2, h3⟩ := h1
      have h4 := Inv.run hz ps h3
      rw [h2]
      have e1 : n + Spec.prints [p] + Spec.prints ps = n + Spec.prints (p :: ps) := by
        cases p <;> simp [Spec.prints, Nat.add_assoc, Nat.add_comm]
      rw [e1] at h4
      exact h4

/-- The memory in use: the texts and the large values. -/
theorem Inv.inUse (h : Inv L s env n) : Spec.inUse s = n + Spec.needed L.big env := by
  have e1 : {a | s.heap a ≠ Option.none} = {a | s.heap a = Option.some .text} ∪ {a | ∃ v, s.heap a = Option.some (.num v)} := by
    ext a
    simp only [Set.mem_ofPred_eq, Set.mem_union]
    cases s.heap a with
    | none => simp
    | some c => cases c <;> simp
  have hd : Disjoint {a | s.heap a = Option.some .text} {a | ∃ v, s.heap a = Option.some (.num v)} := by
    rw [Set.disjoint_left]
    rintro a h1 ⟨v, h2⟩
    rw [Set.mem_ofPred_eq, h2] at h1
    cases h1
  have hf2 : {a | ∃ v, s.heap a = Option.some (.num v)}.Finite := h.finite.subset fun a ⟨v, hv⟩ => by simp [hv]
  rw [Spec.inUse, e1, Set.ncard_union_eq hd h.texts_finite hf2, h.texts, Spec.needed]
  congr 1
  have key : ∀ o v, env o = Option.some v → L.big v = true → ∃ a, s.objs o = Option.some (.block a) ∧ s.heap a = Option.some (.num v) := by
    intro o v h1 h2
    have h3 := h.holds o
    rw [h1] at h3
    cases eo : s.objs o with
    | none => rw [eo] at h3; exact h3.elim
    | some r =>
      rw [eo] at h3
      cases r with
      | here w => rw [Holds] at h3; rw [h2] at h3; simp at h3
      | block a => exact ⟨a, rfl, h3.1⟩
  have key' : ∀ o, (∃ v, env o = Option.some v ∧ L.big v = true) →
      ∃ a, s.objs o = Option.some (.block a) ∧ ∃ v, s.heap a = Option.some (.num v) := by
    rintro o ⟨v, h1, h2⟩
    obtain ⟨a, h3, h4⟩ := key o v h1 h2
    exact ⟨a, h3, v, h4⟩
  choose! g hg using key'
  symm
  refine Set.ncard_congr (fun o _ => g o) (fun o ho => (hg o ho).2) (fun o p ho hp e => ?_) ?_
  · have h1 := (hg o ho).1
    have h2 := (hg p hp).1
    rw [← e] at h2
    exact h.inj _ _ _ h1 h2
  · rintro a ⟨v, hv⟩
    obtain ⟨o, ho⟩ := h.owned a v hv
    have h3 := h.holds o
    rw [ho] at h3
    cases eo : env o with
    | none => rw [eo] at h3; exact h3.elim
    | some w =>
      rw [eo] at h3
      have hm : ∃ v, env o = Option.some v ∧ L.big v = true := ⟨w, eo, h3.2⟩
      refine ⟨o, hm, ?_⟩
      have := (hg o hm).1
      rw [ho] at this
      injection this with this
      injection this with this
      exact this.symm

end Mandelbrot.Wrap
