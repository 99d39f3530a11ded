import Verif.Spec.Storage
import Mathlib.Data.List.Nodup
import Mathlib.Data.List.Perm.Basic
import Mathlib.Data.List.Range
import Mathlib.Tactic.Tauto

/-!
# Invariant of the storage model and its relation to the values
-/

namespace Mandelbrot.Storage

variable {V : Type}

/-- The value an object stands for. -/
def valOf (live : ℕ → Option (Block V)) (o : Obj) : Spec.Val V :=
  ⟨o.size, o.known, o.nonzero, (o.ptr.bind live).map Block.cells⟩

/-- Memory invariant. -/
structure Inv (st : St V) : Prop where
  has : ∀ v o a, st.objs v = some o → o.ptr = some a → ∃ b, st.live a = some b ∧ b.size = o.size
  inj : ∀ v w o p a, st.objs v = some o → st.objs w = some p → o.ptr = some a → p.ptr = some a → v = w
  own : ∀ a b, st.live a = some b → ∃ v o, st.objs v = some o ∧ o.ptr = some a
  fresh : ∀ a, st.next ≤ a → st.live a = none
  freed : ∀ a, a ∈ st.freed ↔ a < st.next ∧ st.live a = none
  once : st.freed.Nodup
  old : ∀ u w a, st.views u = some w → w.base = some a → a < st.next

/-- How a view and its meaning belong together. -/
def ViewRel (st : St V) : Option View → Option Spec.Window → Prop
  | none, none => True
  | some w, some x => w.off = x.off ∧ w.len = x.len ∧
    match x.holder with
    | none => ∀ a, w.base = some a → st.live a = none
    | some v => ∃ o a, st.objs v = some o ∧ o.ptr = some a ∧ w.base = some a
  | _, _ => False

/-- The state stands for the world. -/
structure Rel (st : St V) (W : Spec.World V) : Prop where
  inv : Inv st
  objs : ∀ v, W.objs v = (st.objs v).map (valOf st.live)
  views : ∀ u, ViewRel st (st.views u) (W.views u)

theorem Rel.init : Rel (St.init : St V) .init := by
  refine ⟨⟨?_, ?_, ?_, ?_, ?_, ?_, ?_⟩, ?_, ?_⟩ <;> simp [St.init, Spec.World.init, ViewRel]

theorem Inv.lt {st : St V} (h : Inv st) {a : ℕ} {b : Block V} (hb : st.live a = some b) : a < st.next := by
  by_contra hc
  rw [h.fresh a (by omega)] at hb
  exact absurd hb (by simp)

theorem viewRel_follow {st st' : St V} {x : Option View} {y : Option Spec.Window} (f : ℕ → Option ℕ)
    (h : ViewRel st x y)
    (hdead : ∀ w a, x = some w → w.base = some a → st.live a = none → st'.live a = none)
    (hhold : ∀ v o a, st.objs v = some o → o.ptr = some a →
      match f v with
      | none => st'.live a = none
      | some v' => ∃ o', st'.objs v' = some o' ∧ o'.ptr = some a) :
    ViewRel st' x (y.map fun w => { w with holder := w.holder.bind f }) := by
  cases x with
  | none => cases y with
    | none => trivial
    | some y => exact h.elim
  | some w => cases y with
    | none => exact h.elim
    | some y =>
      obtain ⟨h1, h2, h3⟩ := h
      obtain ⟨holder, off, len⟩ := y
      refine ⟨h1, h2, ?_⟩
      cases holder with
      | none => exact fun a ha => hdead w a rfl ha (h3 a ha)
      | some v =>
        obtain ⟨o, a, ho, hp, hb⟩ := h3
        have := hhold v o a ho hp
        show match f v with | none => _ | some v' => _
        cases hf : f v with
        | none =>
          rw [hf] at this
          intro a' ha'
          rw [hb] at ha'
          cases ha'
          exact this
        | some v' =>
          rw [hf] at this
          obtain ⟨o', ho', hp'⟩ := this
          exact ⟨o', a, ho', hp', hb⟩

theorem viewRel_same {st st' : St V} {x : Option View} {y : Option Spec.Window}
    (h : ViewRel st x y)
    (hdead : ∀ w a, x = some w → w.base = some a → st.live a = none → st'.live a = none)
    (hhold : ∀ v o a, st.objs v = some o → o.ptr = some a → ∃ o', st'.objs v = some o' ∧ o'.ptr = some a) :
    ViewRel st' x y := by
  have := viewRel_follow some h hdead hhold
  have e : (y.map fun w => { w with holder := w.holder.bind some }) = y := by
    cases y with
    | none => rfl
    | some y => simp
  rwa [e] at this

/-- Conclusion of one step. -/
def Match (st : St V) (W : Spec.World V) (op : Op V) : Prop :=
  match exec st op, Spec.step W op with
  | .ok (st', r), some (W', r') => r = r' ∧ Rel st' W'
  | .error e, none => e = .ub
  | _, _ => False

theorem match_make {st : St V} {W : Spec.World V} (h : Rel st W) (v : ℕ) (limit : ℤ) (k : Kind V) (mem : Bool) :
    Match st W (.make v limit k mem) := by
  have ho := h.objs v
  unfold Match
  have hrel : (relu limit).toNat = limit.toNat := by unfold relu; omega
  simp only [exec, Spec.step]
  cases hv : st.objs v with
  | some o => simp [ho, hv]
  | none =>
    rw [hrel]
    have hW : W.objs v = none := by rw [ho, hv]; rfl
    simp only [hW, Option.isSome_none, Bool.false_eq_true, if_false]
    -- binding `v` to an object without storage
    have key : ∀ o : Obj, o.ptr = none → Rel (st.set v (some o))
        { W with objs := Function.update W.objs v (some (valOf st.live o)) } := by
      intro o hp
      have i := h.inv
      refine ⟨⟨?_, ?_, ?_, i.fresh, i.freed, i.once, i.old⟩, ?_, ?_⟩
      · intro w p a hw ha
        by_cases hwv : w = v
        · subst hwv; simp [St.set] at hw; subst hw; rw [hp] at ha; cases ha
        · simp [St.set, hwv] at hw; exact i.has w p a hw ha
      · intro w w' p p' a hw hw' ha ha'
        by_cases hwv : w = v
        · subst hwv; simp [St.set] at hw; subst hw; rw [hp] at ha; cases ha
        by_cases hwv' : w' = v
        · subst hwv'; simp [St.set] at hw'; subst hw'; rw [hp] at ha'; cases ha'
        simp [St.set, hwv] at hw; simp [St.set, hwv'] at hw'
        exact i.inj w w' p p' a hw hw' ha ha'
      · intro a b hb
        obtain ⟨w, p, hw, ha⟩ := i.own a b hb
        have hwv : w ≠ v := by rintro rfl; rw [hv] at hw; cases hw
        exact ⟨w, p, by simpa [St.set, hwv] using hw, ha⟩
      · intro w
        by_cases hwv : w = v
        · subst hwv; simp [St.set]
        · simpa [St.set, hwv] using h.objs w
      · intro u
        have hu := h.views u
        show ViewRel _ (st.views u) (W.views u)
        refine viewRel_same hu (fun _ _ _ _ => id) fun y o' a h3 h4 => ?_
        have hwv : y ≠ v := by rintro rfl; rw [hv] at h3; cases h3
        exact ⟨o', by simpa [St.set, hwv] using h3, h4⟩
    by_cases hz : limit.toNat = 0
    · simp only [hz, if_true]
      exact ⟨trivial, key ⟨0, none, 0, 0⟩ rfl⟩
    · rw [if_neg hz, if_neg hz]
      cases mem with
      | false =>
        cases k with
        | raw => exact ⟨rfl, key ⟨limit.toNat, none, 0, 0⟩ rfl⟩
        | built x => exact ⟨rfl, h⟩
      | true =>
        have i := h.inv
        have hn : st.live st.next = none := i.fresh _ le_rfl
        have main : Rel { (st.set v (some ⟨limit.toNat, some st.next, 0, 0⟩)) with
              live := Function.update st.live st.next (some ⟨limit.toNat, k.cells⟩), next := st.next + 1 }
            { W with objs := Function.update W.objs v (some ⟨limit.toNat, 0, 0, some k.cells⟩) } := by
          have hne : ∀ w o, st.objs w = some o → w ≠ v := by
            rintro w o hw rfl; rw [hv] at hw; cases hw
          have hpn : ∀ w o, st.objs w = some o → o.ptr ≠ some st.next := by
            intro w o hw ha
            obtain ⟨b, hb, -⟩ := i.has w o _ hw ha
            rw [hn] at hb; cases hb
          refine ⟨⟨?_, ?_, ?_, ?_, ?_, i.once, ?_⟩, ?_, ?_⟩
          · intro w p a hw ha
            by_cases hwv : w = v
            · subst hwv; simp [St.set] at hw; subst hw
              simp at ha; subst ha
              exact ⟨⟨limit.toNat, k.cells⟩, by simp, rfl⟩
            · simp [St.set, hwv] at hw
              have : a ≠ st.next := by rintro rfl; exact hpn w p hw ha
              obtain ⟨b, hb, hs⟩ := i.has w p a hw ha
              exact ⟨b, by simpa [this] using hb, hs⟩
          · intro w w' p p' a hw hw' ha ha'
            by_cases hwv : w = v <;> by_cases hwv' : w' = v
            · rw [hwv, hwv']
            · subst hwv; simp [St.set] at hw; subst hw; simp at ha; subst ha
              simp [St.set, hwv'] at hw'
              exact absurd ha' (hpn w' p' hw')
            · subst hwv'; simp [St.set] at hw'; subst hw'; simp at ha'; subst ha'
              simp [St.set, hwv] at hw
              exact absurd ha (hpn w p hw)
            · simp [St.set, hwv] at hw; simp [St.set, hwv'] at hw'
              exact i.inj w w' p p' a hw hw' ha ha'
          · intro a b hb
            by_cases han : a = st.next
            · exact ⟨v, ⟨limit.toNat, some st.next, 0, 0⟩, by simp [St.set], by rw [han]⟩
            · simp [han] at hb
              obtain ⟨w, p, hw, ha⟩ := i.own a b hb
              exact ⟨w, p, by simpa [St.set, hne w p hw] using hw, ha⟩
          · intro a ha
            have : a ≠ st.next := by simp at ha; omega
            simp [this]
            exact i.fresh a (by simp at ha; omega)
          · intro a
            show a ∈ st.freed ↔ _
            rw [i.freed a]
            by_cases han : a = st.next
            · subst han; simp
            · simp [han]; intro _; omega
          · intro u w a hu ha
            have := i.old u w a hu ha
            show a < st.next + 1
            omega
          · intro w
            by_cases hwv : w = v
            · subst hwv; simp [St.set, valOf]
            · simp only [St.set, Function.update_of_ne hwv]
              rw [h.objs w]
              cases hw : st.objs w with
              | none => rfl
              | some p =>
                simp only [Option.map_some, valOf]
                cases hp : p.ptr with
                | none => rfl
                | some a =>
                  have : a ≠ st.next := by rintro rfl; exact hpn w p hw hp
                  simp [this]
          · intro u
            have hu := h.views u
            have hold := i.old u
            show ViewRel _ (st.views u) (W.views u)
            refine viewRel_same hu (fun w a hw ha hl => ?_) fun y o' a h3 h4 =>
              ⟨o', by simpa [St.set, hne y o' h3] using h3, h4⟩
            have : a ≠ st.next := by
              have := hold w a hw ha; omega
            simpa [this] using hl
        cases k with
        | raw => exact ⟨rfl, main⟩
        | built x => exact ⟨rfl, main⟩

/-- Objects exchange their storage: the new objects `objs` hold the same pointers as before, under the names `f`. -/
theorem rel_rename {st : St V} {W : Spec.World V} (h : Rel st W) (objs : ℕ → Option Obj)
    (vals : ℕ → Option (Spec.Val V)) (f : ℕ → ℕ)
    (hf : ∀ v o a, st.objs v = some o → o.ptr = some a →
      ∃ o', objs (f v) = some o' ∧ o'.ptr = some a ∧ o'.size = o.size)
    (hb : ∀ w o' a, objs w = some o' → o'.ptr = some a → ∃ v o, st.objs v = some o ∧ o.ptr = some a ∧ f v = w)
    (hvals : ∀ v, vals v = (objs v).map (valOf st.live)) :
    Rel { st with objs := objs } ⟨vals, Spec.follow W.views fun o => some (f o)⟩ := by
  have i := h.inv
  refine ⟨⟨?_, ?_, ?_, i.fresh, i.freed, i.once, i.old⟩, hvals, ?_⟩
  · intro w o' a hw ha
    obtain ⟨v, o, hv, hp, e⟩ := hb w o' a hw ha
    obtain ⟨b, hl, hs⟩ := i.has v o a hv hp
    obtain ⟨o'', h1, h2, h3⟩ := hf v o a hv hp
    refine ⟨b, hl, ?_⟩
    rw [e, show objs w = some o' from hw] at h1
    cases h1
    rw [hs, h3]
  · intro w w' o o' a hw hw' ha ha'
    obtain ⟨v, p, hv, hp, e⟩ := hb w o a hw ha
    obtain ⟨v', p', hv', hp', e'⟩ := hb w' o' a hw' ha'
    rw [← e, ← e', i.inj v v' p p' a hv hv' hp hp']
  · intro a b hl
    obtain ⟨v, o, hv, hp⟩ := i.own a b hl
    obtain ⟨o', h1, h2, -⟩ := hf v o a hv hp
    exact ⟨f v, o', h1, h2⟩
  · intro u
    refine viewRel_follow _ (h.views u) (fun _ _ _ _ => id) fun v o a hv hp => ?_
    obtain ⟨o', h1, h2, -⟩ := hf v o a hv hp
    exact ⟨o', h1, h2⟩

theorem match_move {st : St V} {W : Spec.World V} (h : Rel st W) (v w : ℕ) : Match st W (.move v w) := by
  have ho := h.objs v
  have hw := h.objs w
  unfold Match
  simp only [exec, Spec.step]
  cases hv : st.objs v with
  | some o => simp [ho, hv]
  | none =>
    have hW : W.objs v = none := by rw [ho, hv]; rfl
    simp only [hW, Option.isSome_none, Bool.false_eq_true, if_false]
    cases hg : st.objs w with
    | none => rw [hw, hg]; rfl
    | some g =>
      have hvw : v ≠ w := by rintro rfl; rw [hv] at hg; cases hg
      rw [hw, hg]
      refine ⟨rfl, rel_rename h _ _ (fun o => if o = w then v else o) ?_ ?_ ?_⟩
      · intro x o a hx hp
        by_cases hxw : x = w
        · subst hxw
          rw [hg] at hx
          cases hx
          exact ⟨g, by simp [St.set, hvw], hp, rfl⟩
        · have hxv : x ≠ v := by rintro rfl; rw [hv] at hx; cases hx
          exact ⟨o, by simpa [St.set, hxw, hxv] using hx, hp, rfl⟩
      · intro x o a hx hp
        by_cases hxw : x = w
        · subst hxw
          simp [St.set] at hx
          subst hx
          cases hp
        by_cases hxv : x = v
        · subst hxv
          simp [St.set, hvw] at hx
          subst hx
          exact ⟨w, g, hg, hp, by simp⟩
        · simp [St.set, hxw, hxv] at hx
          exact ⟨x, o, hx, hp, by simp [hxw]⟩
      · intro x
        by_cases hxw : x = w
        · subst hxw
          simp [St.set, valOf, Spec.Val.empty]
        by_cases hxv : x = v
        · subst hxv
          simp [St.set, hvw]
        · simpa [St.set, hxw, hxv] using h.objs x

theorem match_swap {st : St V} {W : Spec.World V} (h : Rel st W) (v w : ℕ) : Match st W (.swap v w) := by
  have ho := h.objs v
  have hw := h.objs w
  unfold Match
  simp only [exec, Spec.step]
  cases hv : st.objs v with
  | none => rw [ho, hv]; rfl
  | some f =>
    cases hg : st.objs w with
    | none => rw [ho, hv, hw, hg]; rfl
    | some g =>
      rw [ho, hv, hw, hg]
      have look : ∀ x, Function.update (st.set v (some g)).objs w (some f) x = st.objs (Equiv.swap v w x) := by
        intro x
        by_cases hxw : x = w
        · subst hxw; simp [St.set, hv]
        by_cases hxv : x = v
        · subst hxv; simp [St.set, hxw, hg]
        · simp [St.set, hxw, hxv, Equiv.swap_apply_of_ne_of_ne hxv hxw]
      refine ⟨rfl, rel_rename h _ _ (Equiv.swap v w) ?_ ?_ ?_⟩
      · intro x o a hx hp
        refine ⟨o, ?_, hp, rfl⟩
        rw [look, Equiv.swap_apply_self, hx]
      · intro x o a hx hp
        rw [look] at hx
        exact ⟨_, o, hx, hp, by simp⟩
      · intro x
        rw [look]
        by_cases hxw : x = w
        · subst hxw; simp [hv]
        by_cases hxv : x = v
        · subst hxv; simp [hxw, hg]
        · simp [hxw, hxv, Equiv.swap_apply_of_ne_of_ne hxv hxw, h.objs x]

/-- Freeing the storage of `v` and rebinding it to an object without storage, or to nothing. -/
theorem rel_release {st : St V} {W : Spec.World V} (h : Rel st W) {v : ℕ} {f : Obj} (hv : st.objs v = some f)
    (o : Option Obj) (ho : ∀ x, o = some x → x.ptr = none) :
    ∃ st', release st f.ptr = .ok st' ∧ Rel (st'.set v o)
      ⟨Function.update W.objs v (o.map (valOf st.live)), Spec.follow W.views fun x => if x = v then none else some x⟩ := by
  have i := h.inv
  cases hp : f.ptr with
  | none =>
    refine ⟨st, rfl, ⟨⟨?_, ?_, ?_, i.fresh, i.freed, i.once, i.old⟩, ?_, ?_⟩⟩
    · intro w p a hw ha
      by_cases hwv : w = v
      · subst hwv; simp [St.set] at hw; rw [ho p hw] at ha; cases ha
      · simp [St.set, hwv] at hw; exact i.has w p a hw ha
    · intro w w' p p' a hw hw' ha ha'
      by_cases hwv : w = v
      · subst hwv; simp [St.set] at hw; rw [ho p hw] at ha; cases ha
      by_cases hwv' : w' = v
      · subst hwv'; simp [St.set] at hw'; rw [ho p' hw'] at ha'; cases ha'
      simp [St.set, hwv] at hw; simp [St.set, hwv'] at hw'
      exact i.inj w w' p p' a hw hw' ha ha'
    · intro a b hb
      obtain ⟨w, p, hw, ha⟩ := i.own a b hb
      have hwv : w ≠ v := by rintro rfl; rw [hv] at hw; cases hw; rw [hp] at ha; cases ha
      exact ⟨w, p, by simpa [St.set, hwv] using hw, ha⟩
    · intro w
      by_cases hwv : w = v
      · subst hwv; simp [St.set]
      · simpa [St.set, hwv] using h.objs w
    · intro u
      refine viewRel_follow _ (h.views u) (fun _ _ _ _ => id) fun w p a hw ha => ?_
      have hwv : w ≠ v := by rintro rfl; rw [hv] at hw; cases hw; rw [hp] at ha; cases ha
      rw [if_neg hwv]
      exact ⟨p, by simpa [St.set, hwv] using hw, ha⟩
  | some a =>
    obtain ⟨b, hb, hs⟩ := i.has v f a hv hp
    have hne : ∀ w p, st.objs w = some p → w ≠ v → p.ptr ≠ some a := fun w p hw hwv ha =>
      hwv (i.inj w v p f a hw hv ha hp)
    refine ⟨{ st with live := Function.update st.live a none, freed := a :: st.freed }, ?_,
      ⟨⟨?_, ?_, ?_, ?_, ?_, ?_, i.old⟩, ?_, ?_⟩⟩
    · show (need (st.live a) >>= fun _ => _) = _
      rw [hb]; rfl
    · intro w p c hw hc
      by_cases hwv : w = v
      · subst hwv; simp [St.set] at hw; rw [ho p hw] at hc; cases hc
      · simp [St.set, hwv] at hw
        have hca : c ≠ a := by rintro rfl; exact hne w p hw hwv hc
        obtain ⟨b', h1, h2⟩ := i.has w p c hw hc
        exact ⟨b', by simpa [St.set, hca] using h1, h2⟩
    · intro w w' p p' c hw hw' ha ha'
      by_cases hwv : w = v
      · subst hwv; simp [St.set] at hw; rw [ho p hw] at ha; cases ha
      by_cases hwv' : w' = v
      · subst hwv'; simp [St.set] at hw'; rw [ho p' hw'] at ha'; cases ha'
      simp [St.set, hwv] at hw; simp [St.set, hwv'] at hw'
      exact i.inj w w' p p' c hw hw' ha ha'
    · intro c b' hb'
      by_cases hca : c = a
      · subst hca; simp [St.set] at hb'
      simp [St.set, hca] at hb'
      obtain ⟨w, p, hw, ha⟩ := i.own c b' hb'
      have hwv : w ≠ v := by
        rintro rfl; rw [hv] at hw; cases hw; rw [hp] at ha; cases ha; exact hca rfl
      exact ⟨w, p, by simpa [St.set, hwv] using hw, ha⟩
    · intro c hc
      by_cases hca : c = a
      · subst hca; simp [St.set]
      · simp [St.set, hca]; exact i.fresh c hc
    · intro c
      have := i.freed c
      by_cases hca : c = a
      · subst hca
        simp [St.set, i.lt hb]
      · simp [St.set, hca, this]
    · refine List.nodup_cons.2 ⟨fun hm => ?_, i.once⟩
      rw [((i.freed a).1 hm).2] at hb
      cases hb
    · intro w
      by_cases hwv : w = v
      · subst hwv
        simp only [St.set, Function.update_self]
        cases ho' : o with
        | none => rfl
        | some x => simp [valOf, ho x ho']
      · simp only [St.set, Function.update_of_ne hwv]
        rw [h.objs w]
        cases hw : st.objs w with
        | none => rfl
        | some p =>
          simp only [Option.map_some, valOf]
          cases hpp : p.ptr with
          | none => rfl
          | some c =>
            have hca : c ≠ a := by rintro rfl; exact hne w p hw hwv hpp
            simp [hca]
    · intro u
      refine viewRel_follow _ (h.views u) (fun w c _ _ hd => ?_) fun w p c hw hc => ?_
      · by_cases hca : c = a
        · subst hca; simp [St.set]
        · simpa [St.set, hca] using hd
      · by_cases hwv : w = v
        · subst hwv
          rw [hv] at hw
          cases hw
          rw [hp] at hc
          cases hc
          simp [St.set]
        · rw [if_neg hwv]
          exact ⟨p, by simpa [St.set, hwv] using hw, hc⟩

theorem match_clear {st : St V} {W : Spec.World V} (h : Rel st W) (v : ℕ) : Match st W (.clear v) := by
  have ho := h.objs v
  unfold Match
  simp only [exec, Spec.step]
  cases hv : st.objs v with
  | none => rw [ho, hv]; rfl
  | some f =>
    obtain ⟨st', h1, h2⟩ := rel_release h hv (some ⟨0, none, 0, 0⟩) (by rintro x ⟨⟩; rfl)
    rw [ho, hv]
    simp only [need, bok, h1]
    exact ⟨rfl, h2⟩

theorem match_destroy {st : St V} {W : Spec.World V} (h : Rel st W) (v : ℕ) : Match st W (.destroy v) := by
  have ho := h.objs v
  unfold Match
  simp only [exec, Spec.step]
  cases hv : st.objs v with
  | none => rw [ho, hv]; rfl
  | some f =>
    obtain ⟨st', h1, h2⟩ := rel_release h hv none (by rintro x ⟨⟩)
    rw [ho, hv]
    simp only [need, bok, h1]
    exact ⟨rfl, h2⟩

theorem match_counts {st : St V} {W : Spec.World V} (h : Rel st W) (v : ℕ) (k z : ℤ) :
    Match st W (.counts v k z) := by
  have ho := h.objs v
  unfold Match
  simp only [exec, Spec.step]
  cases hv : st.objs v with
  | none => rw [ho, hv]; rfl
  | some f =>
    rw [ho, hv]
    refine ⟨rfl, ?_⟩
    have := rel_rename h (Function.update st.objs v (some { f with known := k, nonzero := z }))
      (Function.update W.objs v (some { valOf st.live f with known := k, nonzero := z })) id ?_ ?_ ?_
    · have e : Spec.follow W.views (fun o => some (id o)) = W.views := by
        funext u
        unfold Spec.follow
        cases W.views u with
        | none => rfl
        | some y => simp
      rw [e] at this
      exact this
    · intro x o a hx hp
      by_cases hxv : x = v
      · subst hxv
        rw [hv] at hx
        cases hx
        exact ⟨{ f with known := k, nonzero := z }, by simp, hp, rfl⟩
      · exact ⟨o, by simpa [hxv] using hx, hp, rfl⟩
    · intro x o a hx hp
      by_cases hxv : x = v
      · subst hxv
        simp at hx
        subst hx
        exact ⟨x, f, hv, hp, rfl⟩
      · simp [hxv] at hx
        exact ⟨x, o, hx, hp, rfl⟩
    · intro x
      by_cases hxv : x = v
      · subst hxv; simp [valOf]
      · simpa [hxv] using h.objs x

theorem load_get {st : St V} (i : Inv st) {v : ℕ} {o : Obj} (hv : st.objs v = some o) (k : ℕ) :
    load st o.ptr k = match (valOf st.live o).get k with
      | some x => .ok x
      | none => .error .ub := by
  unfold load Spec.Val.get valOf
  cases hp : o.ptr with
  | none => simp [need]; rfl
  | some a =>
    obtain ⟨b, hb, hs⟩ := i.has v o a hv hp
    simp only [need, bok, hb, hs, Option.bind_some, Option.map_some]
    by_cases hk : k < o.size
    · rw [if_pos hk, if_pos hk]
      show need (b.cells k) = _
      cases b.cells k <;> rfl
    · rw [if_neg hk, if_neg hk]

theorem store_put {st : St V} {W : Spec.World V} (h : Rel st W) {v : ℕ} {o : Obj} (hv : st.objs v = some o)
    (k : ℕ) (x : V) :
    match store st o.ptr k x, (valOf st.live o).put k x with
    | .ok st', some y => Rel st' { W with objs := Function.update W.objs v (some y) }
    | .error e, none => e = .ub
    | _, _ => False := by
  have i := h.inv
  unfold store Spec.Val.put valOf
  cases hp : o.ptr with
  | none => by_cases hk : k < o.size <;> simp [need, hk, berr]
  | some a =>
    obtain ⟨b, hb, hs⟩ := i.has v o a hv hp
    simp only [need, bok, hb, hs, Option.bind_some, Option.map_some]
    by_cases hk : k < o.size
    · rw [if_pos hk, if_pos hk]
      have hne : ∀ w p, st.objs w = some p → w ≠ v → p.ptr ≠ some a := fun w p hw hwv ha =>
        hwv (i.inj w v p o a hw hv ha hp)
      refine ⟨⟨?_, i.inj, ?_, ?_, ?_, i.once, i.old⟩, ?_, ?_⟩
      · intro w p c hw hc
        obtain ⟨b', h1, h2⟩ := i.has w p c hw hc
        by_cases hca : c = a
        · subst hca
          rw [hb] at h1
          cases h1
          exact ⟨⟨o.size, Function.update b.cells k (some x)⟩, by simp, by rw [← h2, hs]⟩
        · exact ⟨b', by simpa [hca] using h1, h2⟩
      · intro c b' hb'
        by_cases hca : c = a
        · subst hca; exact i.own c b hb
        · exact i.own c b' (by simpa [hca] using hb')
      · intro c hc
        have hca : c ≠ a := by
          rintro rfl
          rw [i.fresh c hc] at hb
          cases hb
        simpa [hca] using i.fresh c hc
      · intro c
        show c ∈ st.freed ↔ _
        rw [i.freed c]
        by_cases hca : c = a
        · subst hca; simp [hb]
        · simp [hca]
      · intro w
        by_cases hwv : w = v
        · subst hwv
          simp [hv, valOf, hp]
        · simp only [Function.update_of_ne hwv]
          rw [h.objs w]
          cases hw : st.objs w with
          | none => rfl
          | some p =>
            simp only [Option.map_some, valOf]
            cases hpp : p.ptr with
            | none => rfl
            | some c =>
              have hca : c ≠ a := by rintro rfl; exact hne w p hw hwv hpp
              simp [hca]
      · intro u
        refine viewRel_same (h.views u) (fun w c _ _ hd => ?_) fun w p c hw hc => ⟨p, hw, hc⟩
        have hca : c ≠ a := by rintro rfl; rw [hd] at hb; cases hb
        simpa [hca] using hd
    · rw [if_neg hk, if_neg hk]

theorem match_info {st : St V} {W : Spec.World V} (h : Rel st W) (v : ℕ) : Match st W (.info v) := by
  have ho := h.objs v
  unfold Match
  simp only [exec, Spec.step]
  cases hv : st.objs v with
  | none => rw [ho, hv]; rfl
  | some f =>
    rw [ho, hv]
    refine ⟨?_, h⟩
    have : f.ptr.isSome = (valOf st.live f).data.isSome := by
      unfold valOf
      cases hp : f.ptr with
      | none => rfl
      | some a =>
        obtain ⟨b, hb, -⟩ := h.inv.has v f a hv hp
        simp [hb]
    rw [this]
    rfl

theorem match_read {st : St V} {W : Spec.World V} (h : Rel st W) (v k : ℕ) : Match st W (.read v k) := by
  have ho := h.objs v
  unfold Match
  simp only [exec, Spec.step]
  cases hv : st.objs v with
  | none => rw [ho, hv]; rfl
  | some f =>
    rw [ho, hv]
    simp only [need, bok, Option.map_some, Option.bind_some, load_get h.inv hv k]
    cases (valOf st.live f).get k with
    | none => rfl
    | some x => exact ⟨rfl, h⟩

theorem match_write {st : St V} {W : Spec.World V} (h : Rel st W) (v k : ℕ) (x : V) :
    Match st W (.write v k x) := by
  have ho := h.objs v
  unfold Match
  simp only [exec, Spec.step]
  cases hv : st.objs v with
  | none => rw [ho, hv]; rfl
  | some f =>
    rw [ho, hv]
    simp only [need, bok, Option.map_some, Option.bind_some]
    have := store_put h hv k x
    revert this
    cases store st f.ptr k x <;> cases (valOf st.live f).put k x <;> intro this
    · exact this
    · exact this.elim
    · exact this.elim
    · exact ⟨rfl, this⟩

theorem match_view {st : St V} {W : Spec.World V} (h : Rel st W) (u v off len : ℕ) :
    Match st W (.view u v off len) := by
  have ho := h.objs v
  have i := h.inv
  unfold Match
  simp only [exec, Spec.step]
  cases hv : st.objs v with
  | none => rw [ho, hv]; rfl
  | some f =>
    rw [ho, hv]
    simp only [need, bok, Option.map_some, Option.bind_some]
    have hd : (valOf st.live f).data.isSome = f.ptr.isSome := by
      unfold valOf
      cases hp : f.ptr with
      | none => rfl
      | some a =>
        obtain ⟨b, hb, -⟩ := i.has v f a hv hp
        simp [hb]
    have hc : (off + len ≤ f.size ∧ (f.ptr = none → off = 0)) ↔
        (off + len ≤ (valOf st.live f).size ∧ ((valOf st.live f).data.isSome ∨ off = 0)) := by
      rw [hd]
      show _ ↔ off + len ≤ f.size ∧ _
      cases f.ptr <;> simp
    by_cases hok : off + len ≤ f.size ∧ (f.ptr = none → off = 0)
    · rw [if_pos hok, if_pos (hc.1 hok)]
      refine ⟨rfl, ⟨⟨i.has, i.inj, i.own, i.fresh, i.freed, i.once, ?_⟩, h.objs, ?_⟩⟩
      · intro x w a hx ha
        by_cases hxu : x = u
        · subst hxu
          simp at hx
          subst hx
          obtain ⟨b, hb, -⟩ := i.has v f a hv ha
          exact i.lt hb
        · exact i.old x w a (by simpa [hxu] using hx) ha
      · intro x
        by_cases hxu : x = u
        · subst hxu
          simp only [Function.update_self, ViewRel, hd]
          refine ⟨trivial, trivial, ?_⟩
          cases hp : f.ptr with
          | none => intro a ha; cases ha
          | some a => exact ⟨f, a, hv, hp, rfl⟩
        · simp only [Function.update_of_ne hxu]
          exact viewRel_same (h.views x) (fun _ _ _ _ => id) fun w p c hw hc => ⟨p, hw, hc⟩
    · rw [if_neg hok, if_neg (fun hh => hok (hc.2 hh))]

theorem match_readView {st : St V} {W : Spec.World V} (h : Rel st W) (u k : ℕ) : Match st W (.readView u k) := by
  have hu := h.views u
  unfold Match
  simp only [exec, Spec.step]
  cases hx : st.views u with
  | none =>
    cases hy : W.views u with
    | none => rfl
    | some y => rw [hx, hy] at hu; exact hu.elim
  | some x =>
    cases hy : W.views u with
    | none => rw [hx, hy] at hu; exact hu.elim
    | some y =>
      rw [hx, hy] at hu
      obtain ⟨holder, off, len⟩ := y
      obtain ⟨h1, h2, h3⟩ := hu
      simp only at h1 h2 h3
      simp only [need, bok, Option.bind_some, h1, h2]
      by_cases hk : k < len
      · rw [if_pos hk, if_neg (by omega)]
        cases holder with
        | none =>
          have : load st x.base (off + k) = .error .ub := by
            unfold load
            cases hb : x.base with
            | none => rfl
            | some a => simp only [need, bok, h3 a hb]; rfl
          rw [this]
          rfl
        | some v =>
          obtain ⟨o, a, hv, hp, hb⟩ := h3
          rw [hb, ← hp, load_get h.inv hv]
          simp only [Option.bind_some, h.objs v, hv, Option.map_some]
          cases (valOf st.live o).get (off + k) with
          | none => rfl
          | some x => exact ⟨rfl, h⟩
      · rw [if_neg hk, if_pos (by omega)]

theorem match_writeView {st : St V} {W : Spec.World V} (h : Rel st W) (u k : ℕ) (e : V) :
    Match st W (.writeView u k e) := by
  have hu := h.views u
  unfold Match
  simp only [exec, Spec.step]
  cases hx : st.views u with
  | none =>
    cases hy : W.views u with
    | none => rfl
    | some y => rw [hx, hy] at hu; exact hu.elim
  | some x =>
    cases hy : W.views u with
    | none => rw [hx, hy] at hu; exact hu.elim
    | some y =>
      rw [hx, hy] at hu
      obtain ⟨holder, off, len⟩ := y
      obtain ⟨h1, h2, h3⟩ := hu
      simp only at h1 h2 h3
      simp only [need, bok, Option.bind_some, h1, h2]
      by_cases hk : k < len
      · rw [if_pos hk, if_neg (by omega)]
        cases holder with
        | none =>
          have : store st x.base (off + k) e = .error .ub := by
            unfold store
            cases hb : x.base with
            | none => rfl
            | some a => simp only [need, bok, h3 a hb]; rfl
          rw [this]
          rfl
        | some v =>
          obtain ⟨o, a, hv, hp, hb⟩ := h3
          rw [hb, ← hp]
          simp only [Option.bind_some, h.objs v, hv, Option.map_some]
          have := store_put h hv (off + k) e
          revert this
          cases store st o.ptr (off + k) e <;> cases (valOf st.live o).put (off + k) e <;> intro this
          · exact this
          · exact this.elim
          · exact this.elim
          · exact ⟨rfl, this⟩
      · rw [if_neg hk, if_pos (by omega)]

theorem match_exec {st : St V} {W : Spec.World V} (h : Rel st W) (op : Op V) : Match st W op := by
  cases op with
  | make v l k m => exact match_make h v l k m
  | move v w => exact match_move h v w
  | swap v w => exact match_swap h v w
  | clear v => exact match_clear h v
  | destroy v => exact match_destroy h v
  | counts v k z => exact match_counts h v k z
  | info v => exact match_info h v
  | read v k => exact match_read h v k
  | write v k x => exact match_write h v k x
  | view u v o l => exact match_view h u v o l
  | readView u k => exact match_readView h u k
  | writeView u k x => exact match_writeView h u k x

/-- A program gives the results its meaning prescribes, or is undefined where that is. -/
theorem run_match (ops : List (Op V)) : ∀ {st : St V} {W : Spec.World V}, Rel st W →
    match run st ops, Spec.run W ops with
    | .ok (st', rs), some rs' => rs = rs' ∧ ∃ W', Rel st' W'
    | .error e, none => e = .ub
    | _, _ => False := by
  induction ops with
  | nil => intro st W h; exact ⟨rfl, W, h⟩
  | cons o os ih =>
    intro st W h
    have hm := match_exec h o
    unfold Match at hm
    simp only [run, Spec.run]
    revert hm
    cases exec st o with
    | error e =>
      cases Spec.step W o with
      | none => intro hm; exact hm
      | some r => intro hm; exact hm.elim
    | ok r =>
      obtain ⟨st', r⟩ := r
      cases Spec.step W o with
      | none => intro hm; exact hm.elim
      | some r' =>
        obtain ⟨W', r'⟩ := r'
        rintro ⟨rfl, hr⟩
        have := ih hr
        revert this
        simp only [bok, Option.bind_some]
        cases run st' os with
        | error e =>
          cases Spec.run W' os with
          | none => intro hm; exact hm
          | some r => intro hm; exact hm.elim
        | ok q =>
          obtain ⟨st'', rs⟩ := q
          cases Spec.run W' os with
          | none => intro hm; exact hm.elim
          | some r =>
            rintro ⟨rfl, hW⟩
            exact ⟨rfl, hW⟩

end Mandelbrot.Storage
