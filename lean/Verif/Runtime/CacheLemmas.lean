import Verif.Runtime.Cache
import Mathlib.Tactic.NormNum
import Mathlib.Tactic.Tauto
import Mathlib.Data.List.Count

/-!
# Invariant of the twiddle caches
-/

namespace Mandelbrot.Runtime

variable {V : Type} (E : Env V)

/-- Memory invariant of the reachable states. -/
structure Inv (st : St V) : Prop where
  fresh : ∀ a, st.next ≤ a → st.live a = none
  few : ∀ d c, st.cache d = some c → st.live c.few = some ⟨sLimit * jLimit, E.few⟩
  tw : ∀ d c, st.cache d = some c → ∀ (i a : ℕ), c.tw[i]? = some a → st.live a = some ⟨2 ^ i / 4 + 1, E.tab i⟩
  sepFew : ∀ d c d' c', st.cache d = some c → st.cache d' = some c' → c'.few ∉ c.tw
  sepTw : ∀ d c d' c', st.cache d = some c → st.cache d' = some c' → d ≠ d' → ∀ a ∈ c.tw, a ∉ c'.tw
  len : ∀ d c, st.cache d = some c → c.tw.length ≤ 30

/-- Each constructed singleton has one hook, and the others none. -/
def HInv (st : St V) : Prop := ∀ d, st.hooks.count (.clear d) = if (st.cache d).isSome then 1 else 0

theorem Inv.init : Inv E (St.init : St V) := by
  constructor <;> simp [St.init]

theorem HInv.init : HInv (St.init : St V) := by intro d; simp [St.init]

/-- Growth: caches keep what they have, and singletons constructed on the way have their hooks appended. -/
structure Grow (st st' : St V) : Prop where
  cache : ∀ d c, st.cache d = some c → ∃ c', st'.cache d = some c' ∧ c'.few = c.few ∧ c.tw <+: c'.tw
  log : st'.log = st.log
  hooks : ∃ l : List Side, st'.hooks = st.hooks ++ l.map .clear ∧ l.Nodup ∧ (∀ d ∈ l, st.cache d = none) ∧
    ∀ d, (st'.cache d).isSome ↔ (st.cache d).isSome ∨ d ∈ l

theorem Grow.refl (st : St V) : Grow st st :=
  ⟨fun _ c h => ⟨c, h, rfl, List.prefix_refl _⟩, rfl, [], by simp⟩

theorem Grow.trans {a b c : St V} (h : Grow a b) (h' : Grow b c) : Grow a c := by
  refine ⟨fun d x hx => ?_, h'.log.trans h.log, ?_⟩
  · obtain ⟨y, hy, f, p⟩ := h.cache d x hx
    obtain ⟨z, hz, f', p'⟩ := h'.cache d y hy
    exact ⟨z, hz, f'.trans f, p.trans p'⟩
  · obtain ⟨l, e, n, o, s⟩ := h.hooks
    obtain ⟨l', e', n', o', s'⟩ := h'.hooks
    refine ⟨l ++ l', by rw [e', e, List.append_assoc, List.map_append], ?_, ?_, ?_⟩
    · rw [List.nodup_append]
      refine ⟨n, n', ?_⟩
      rintro d hd _ hd' rfl
      have h1 := (s d).mpr (Or.inr hd)
      rw [o' d hd'] at h1
      simp at h1
    · intro d hd
      rcases List.mem_append.mp hd with hd | hd
      · exact o d hd
      · have h1 := o' d hd
        have h2 := (s d).not.mp (by simp [h1])
        push Not at h2
        simpa using h2.1
    · intro d
      rw [s', s, List.mem_append]
      tauto

theorem HInv.grow {st st' : St V} (h : HInv st) (g : Grow st st') : HInv st' := by
  obtain ⟨l, e, n, o, s⟩ := g.hooks
  intro d
  have hinj : Function.Injective Hook.clear := by intro a b hab; cases hab; rfl
  rw [e, List.count_append, h d, List.count_map_of_injective _ _ hinj]
  by_cases hd : d ∈ l
  · have h1 := (s d).mpr (Or.inr hd)
    rw [if_pos h1, List.count_eq_one_of_mem n hd, o d hd]
    simp
  · rw [List.count_eq_zero_of_not_mem hd]
    have : (st'.cache d).isSome = (st.cache d).isSome := by
      have := s d
      rw [Bool.eq_iff_iff]; tauto
    rw [this, add_zero]

theorem Inv.lt {st : St V} (h : Inv E st) {a : ℕ} {b : Block V} (hl : st.live a = some b) : a < st.next := by
  by_contra hc
  rw [h.fresh a (by omega)] at hl
  cases hl

variable {E}

theorem bind_ok_iff {α β : Type} {r : Res α} {f : α → Res β} {b : β} :
    (r >>= f) = .ok b ↔ ∃ a, r = .ok a ∧ f a = .ok b := by
  cases r with
  | ok a => simp [bind, Except.bind]
  | error e => simp [bind, Except.bind]

theorem Inv.few_lt {st : St V} (h : Inv E st) {d c} (hc : st.cache d = some c) : c.few < st.next :=
  h.lt E (h.few d c hc)

theorem Inv.tw_lt {st : St V} (h : Inv E st) {d c} (hc : st.cache d = some c) {a : ℕ} (ha : a ∈ c.tw) : a < st.next := by
  obtain ⟨i, hi⟩ := List.mem_iff_getElem?.mp ha
  exact h.lt E (h.tw d c hc i a hi)

theorem alloc_live (st : St V) (b : Block V) (a : ℕ) :
    (st.alloc b).2.live a = if a = st.next then some b else st.live a := rfl

theorem Inv.alloc {st : St V} (h : Inv E st) (b : Block V) : Inv E (st.alloc b).2 := by
  refine ⟨?_, ?_, ?_, h.sepFew, h.sepTw, h.len⟩
  · intro a ha
    have : st.next + 1 ≤ a := ha
    rw [alloc_live, if_neg (by omega), h.fresh a (by omega)]
  · intro d c hc
    have hc' : st.cache d = some c := hc
    rw [alloc_live, if_neg (by have := h.few_lt hc'; omega), h.few d c hc']
  · intro d c hc i a hi
    have hc' : st.cache d = some c := hc
    have := h.tw_lt hc' (List.mem_of_getElem? hi)
    rw [alloc_live, if_neg (by omega), h.tw d c hc' i a hi]

theorem setCache_at (st : St V) (d : Side) (c : Cache) (d' : Side) :
    (st.setCache d c).cache d' = if d' = d then some c else st.cache d' := rfl

theorem Inv.setCache {st : St V} (h : Inv E st) (d : Side) (c : Cache)
    (hfew : st.live c.few = some ⟨sLimit * jLimit, E.few⟩)
    (htw : ∀ i a : ℕ, c.tw[i]? = some a → st.live a = some ⟨2 ^ i / 4 + 1, E.tab i⟩)
    (hself : c.few ∉ c.tw)
    (hsep : ∀ d' c', d' ≠ d → st.cache d' = some c' → c'.few ∉ c.tw ∧ c.few ∉ c'.tw ∧ ∀ a ∈ c.tw, a ∉ c'.tw)
    (hlen : c.tw.length ≤ 30) : Inv E (st.setCache d c) := by
  have hcase : ∀ {d' c'}, (st.setCache d c).cache d' = some c' → (d' = d ∧ c' = c) ∨ (d' ≠ d ∧ st.cache d' = some c') := by
    intro d' c' hc'
    rw [setCache_at] at hc'
    split_ifs at hc' with hdd
    · left; exact ⟨hdd, (Option.some.inj hc').symm⟩
    · right; exact ⟨hdd, hc'⟩
  refine ⟨h.fresh, ?_, ?_, ?_, ?_, ?_⟩
  · intro d' c' hc'
    rcases hcase hc' with ⟨rfl, rfl⟩ | ⟨hne, hc'⟩
    · exact hfew
    · exact h.few d' c' hc'
  · intro d' c' hc' i a hi
    rcases hcase hc' with ⟨rfl, rfl⟩ | ⟨hne, hc'⟩
    · exact htw i a hi
    · exact h.tw d' c' hc' i a hi
  · intro d1 c1 d2 c2 h1 h2
    rcases hcase h1 with ⟨rfl, rfl⟩ | ⟨hne, g1⟩
    · rcases hcase h2 with ⟨rfl, rfl⟩ | ⟨hne2, h2⟩
      · exact hself
      · exact (hsep d2 c2 hne2 h2).1
    · rcases hcase h2 with ⟨rfl, rfl⟩ | ⟨hne2, h2⟩
      · exact (hsep d1 c1 hne g1).2.1
      · exact h.sepFew d1 c1 d2 c2 g1 h2
  · intro d1 c1 d2 c2 h1 h2 hne' a ha
    rcases hcase h1 with ⟨rfl, rfl⟩ | ⟨hne, g1⟩
    · rcases hcase h2 with ⟨rfl, rfl⟩ | ⟨hne2, h2⟩
      · exact absurd rfl hne'
      · exact (hsep d2 c2 hne2 h2).2.2 a ha
    · rcases hcase h2 with ⟨rfl, rfl⟩ | ⟨hne2, h2⟩
      · intro h3
        exact (hsep d1 c1 hne g1).2.2 a h3 ha
      · exact h.sepTw d1 c1 d2 c2 g1 h2 hne' a ha
  · intro d' c' hc'
    rcases hcase hc' with ⟨rfl, rfl⟩ | ⟨hne, hc'⟩
    · exact hlen
    · exact h.len d' c' hc'

/-- Allocation of `few` for a new singleton. -/
theorem Inv.newCache {st : St V} (h : Inv E st) (d : Side) :
    Inv E ((st.alloc ⟨sLimit * jLimit, E.few⟩).2.setCache d ⟨[], st.next⟩) := by
  refine (h.alloc _).setCache d _ ?_ (by simp) (by simp) ?_ (by simp)
  · rw [alloc_live, if_pos rfl]
  · intro d' c' _ hc'
    refine ⟨by simp, fun hm => ?_, by simp⟩
    have hc'' : st.cache d' = some c' := hc'
    have := h.tw_lt hc'' hm
    simp at this

/-- Allocation of the next table of a cache. -/
theorem Inv.push {st : St V} (h : Inv E st) {d : Side} {c : Cache} (hc : st.cache d = some c) (hp : c.tw.length < 30) :
    Inv E ((st.alloc ⟨2 ^ c.tw.length / 4 + 1, E.tab c.tw.length⟩).2.setCache d { c with tw := c.tw ++ [st.next] }) := by
  refine (h.alloc _).setCache d _ ?_ ?_ ?_ ?_ ?_
  · rw [alloc_live, if_neg (by have := h.few_lt hc; simp; omega)]
    exact h.few d c hc
  · intro i a hi
    rw [List.getElem?_append] at hi
    split_ifs at hi with hlt
    · have := h.tw_lt hc (List.mem_of_getElem? hi)
      rw [alloc_live, if_neg (by omega)]
      exact h.tw d c hc i a hi
    · have hi0 : i - c.tw.length = 0 := by
        by_contra hne
        rw [List.getElem?_eq_none (by simp; omega)] at hi
        cases hi
      rw [hi0] at hi
      simp at hi
      have : i = c.tw.length := by omega
      rw [← hi, alloc_live, if_pos rfl, this]
  · have h1 := h.few_lt hc
    have h2 := h.sepFew d c d c hc hc
    simp only [List.mem_append, List.mem_singleton, not_or]
    exact ⟨h2, by omega⟩
  · intro d' c' hne hc'
    have hc'' : st.cache d' = some c' := hc'
    have f' := h.few_lt hc''
    have f := h.few_lt hc
    simp only [List.mem_append, List.mem_singleton, not_or]
    refine ⟨⟨h.sepFew d c d' c' hc hc'', by omega⟩, h.sepFew d' c' d c hc'' hc, ?_⟩
    rintro a (ha | rfl)
    · exact h.sepTw d c d' c' hc hc'' hne.symm a ha
    · intro hm
      have := h.tw_lt hc'' hm
      omega
  · simp; omega

theorem grow_push {st : St V} {d : Side} {c : Cache} (hc : st.cache d = some c) (b : Block V) :
    Grow st ((st.alloc b).2.setCache d { c with tw := c.tw ++ [st.next] }) := by
  refine ⟨fun d' c' hc' => ?_, rfl, [], ?_, by simp, by simp, fun d' => ?_⟩
  · by_cases hd : d' = d
    · subst hd
      rw [hc] at hc'
      cases hc'
      exact ⟨{ c with tw := c.tw ++ [st.next] }, by rw [setCache_at, if_pos rfl], rfl, List.prefix_append _ _⟩
    · exact ⟨c', by rw [setCache_at, if_neg hd]; exact hc', rfl, List.prefix_refl _⟩
  · simp [St.setCache, St.alloc]
  · rw [setCache_at]
    by_cases hd : d' = d
    · subst hd; simp [hc]
    · rw [if_neg hd]; simp [St.alloc]

theorem singleHost_spec {st : St V} (h : Inv E st) :
    ∃ c st', singleHost E st = (c, st') ∧ Inv E st' ∧ Grow st st' ∧ st'.cache .host = some c := by
  rw [singleHost]
  cases hc : st.cache .host with
  | some c => exact ⟨c, st, rfl, h, Grow.refl st, hc⟩
  | none =>
    have h1 : Inv E ({ st with hooks := st.hooks ++ [Hook.clear .host] } : St V) :=
      ⟨h.fresh, h.few, h.tw, h.sepFew, h.sepTw, h.len⟩
    refine ⟨⟨[], st.next⟩, _, rfl, h1.newCache .host, ⟨fun d c' hc' => ?_, rfl, [.host], rfl, by simp, by simpa using hc, fun d => ?_⟩, rfl⟩
    · have hne : d ≠ .host := by rintro rfl; rw [hc] at hc'; cases hc'
      exact ⟨c', by rw [setCache_at, if_neg hne]; exact hc', rfl, List.prefix_refl _⟩
    · rw [setCache_at]
      by_cases hd : d = .host
      · subst hd; simp
      · rw [if_neg hd]; simp [hd]

theorem read_ok {st : St V} {a : ℕ} {b : Block V} (h : st.live a = some b) : st.read a = .ok b := by
  rw [St.read, h]

theorem singleDevice_spec {st : St V} (h : Inv E st) :
    ∃ c st', singleDevice E st = .ok (c, st') ∧ Inv E st' ∧ Grow st st' ∧ st'.cache .device = some c := by
  rw [singleDevice]
  cases hc : st.cache .device with
  | some c => exact ⟨c, st, rfl, h, Grow.refl st, hc⟩
  | none =>
    have h1 : Inv E ({ st with hooks := st.hooks ++ [Hook.clear .device] } : St V) :=
      ⟨h.fresh, h.few, h.tw, h.sepFew, h.sepTw, h.len⟩
    obtain ⟨ch, st2, e, i2, g, hh⟩ := singleHost_spec h1
    have hr := read_ok (i2.few .host ch hh)
    refine ⟨⟨[], st2.next⟩, (st2.alloc ⟨sLimit * jLimit, E.few⟩).2.setCache .device ⟨[], st2.next⟩, ?_,
      i2.newCache .device, ?_, rfl⟩
    · simp only [e, hr, bok]
      rfl
    · obtain ⟨l, e1, n, o, s⟩ := g.hooks
      have hnd : st2.cache .device = none := by
        have := (s .device).not
        simp only [hc] at this
        have hl : Side.device ∉ l := by
          intro hm
          -- `singleHost` constructs the host only
          have : ∀ d ∈ l, d = .host := by
            rw [singleHost] at e
            cases hch : st.cache .host with
            | some c0 =>
              simp only [hch] at e
              cases e
              simp at e1
              subst e1; simp
            | none =>
              simp only [hch] at e
              cases e
              simp [St.setCache, St.alloc] at e1
              intro d hd
              have hh : l.map Hook.clear = [Hook.clear .host] := e1.symm
              have hm' : Hook.clear d ∈ l.map Hook.clear := List.mem_map_of_mem hd
              rw [hh] at hm'
              simpa using hm'
          exact absurd (this _ hm) (by decide)
        simpa [hl] using this
      refine ⟨fun d c' hc' => ?_, g.log, .device :: l, ?_, ?_, ?_, fun d => ?_⟩
      · have hne : d ≠ .device := by rintro rfl; rw [hc] at hc'; cases hc'
        obtain ⟨c2, hc2, f, p⟩ := g.cache d c' hc'
        exact ⟨c2, by rw [setCache_at, if_neg hne]; exact hc2, f, p⟩
      · have : ((st2.alloc ⟨sLimit * jLimit, E.few⟩).2.setCache .device ⟨[], st2.next⟩).hooks = st2.hooks := rfl
        rw [this, e1]; simp
      · rw [List.nodup_cons]
        refine ⟨fun hm => ?_, n⟩
        have := (s .device).mpr (Or.inr hm)
        rw [hnd] at this; simp at this
      · intro d hd
        rcases List.mem_cons.mp hd with rfl | hd
        · exact hc
        · exact o d hd
      · rw [setCache_at]
        by_cases hd : d = .device
        · subst hd; simp
        · rw [if_neg hd]
          have := s d
          simp only [St.alloc, List.mem_cons, hd, false_or]
          exact this

theorem single_spec {st : St V} (h : Inv E st) (d : Side) :
    ∃ c st', single E d st = .ok (c, st') ∧ Inv E st' ∧ Grow st st' ∧ st'.cache d = some c := by
  cases d with
  | host =>
    obtain ⟨c, st', e, r⟩ := singleHost_spec h
    exact ⟨c, st', by rw [single, e], r⟩
  | device => exact singleDevice_spec h

theorem growHost_spec (k : ℕ) {st : St V} (h : Inv E st) {c : Cache} (hc : st.cache .host = some c)
    (hk : c.tw.length + k ≤ 30) :
    ∃ c' st', growHost E k c st = .ok (c', st') ∧ Inv E st' ∧ Grow st st' ∧ st'.cache .host = some c' ∧
      c'.tw.length = c.tw.length + k := by
  induction k generalizing c st with
  | zero => exact ⟨c, st, rfl, h, Grow.refl st, hc, rfl⟩
  | succ k ih =>
    have hp := h.push hc (show c.tw.length < 30 by omega)
    obtain ⟨c', st', e, i, g, hc', hl⟩ := ih hp (c := { c with tw := c.tw ++ [st.next] }) (by rw [setCache_at, if_pos rfl]) (by simp; omega)
    refine ⟨c', st', ?_, i, (grow_push hc _).trans g, hc', by rw [hl]; simp; omega⟩
    rw [growHost]
    simp only []
    rw [if_neg (by omega)]
    exact e

theorem ensureHost_spec {st : St V} (h : Inv E st) {s : ℕ} (hs : s ≤ 29) :
    ∃ c st', ensureHost E s st = .ok (c, st') ∧ Inv E st' ∧ Grow st st' ∧ st'.cache .host = some c ∧ s < c.tw.length := by
  obtain ⟨c, st1, e, i, g, hc⟩ := singleHost_spec h
  have hl := i.len .host c hc
  obtain ⟨c', st', e', i', g', hc', hl'⟩ := growHost_spec (s + 1 - c.tw.length) i hc (by omega)
  refine ⟨c', st', ?_, i', g.trans g', hc', by omega⟩
  rw [ensureHost, e]
  exact e'

theorem growDevice_spec (k : ℕ) {st : St V} (h : Inv E st) {c : Cache} (hc : st.cache .device = some c)
    (hk : c.tw.length + k ≤ 30) :
    ∃ c' st', growDevice E k c st = .ok (c', st') ∧ Inv E st' ∧ Grow st st' ∧ st'.cache .device = some c' ∧
      c'.tw.length = c.tw.length + k := by
  induction k generalizing c st with
  | zero => exact ⟨c, st, rfl, h, Grow.refl st, hc, rfl⟩
  | succ k ih =>
    obtain ⟨ch, st1, e1, i1, g1, hh, hlt⟩ := ensureHost_spec h (s := c.tw.length) (by omega)
    -- the device cache is untouched by the host
    obtain ⟨c1, hc1, f1, p1⟩ := g1.cache .device c hc
    have hcc : c1 = c := by
      have : st1.cache .device = st.cache .device := ensureHost_device e1
      rw [this, hc] at hc1
      exact (Option.some.inj hc1).symm
    subst hcc
    have hg : ch.tw[c1.tw.length]? = some ch.tw[c1.tw.length] := List.getElem?_eq_getElem hlt
    have hr := read_ok (i1.tw .host ch hh _ _ hg)
    have hp := i1.push hc1 (show c1.tw.length < 30 by omega)
    obtain ⟨c', st', e, i, g, hc', hl⟩ := ih hp (c := { c1 with tw := c1.tw ++ [st1.next] }) (by rw [setCache_at, if_pos rfl]) (by simp; omega)
    refine ⟨c', st', ?_, i, g1.trans ((grow_push hc1 _).trans g), hc', by rw [hl]; simp; omega⟩
    rw [growDevice]
    simp only [e1, bok, hg, hr]
    exact e
where
  growHost_device {k : ℕ} {c : Cache} {st st' : St V} {c' : Cache} (h : growHost E k c st = .ok (c', st')) :
      st'.cache .device = st.cache .device := by
    induction k generalizing c st with
    | zero => cases h; rfl
    | succ k ih =>
      rw [growHost] at h
      simp only [] at h
      split_ifs at h
      rw [ih h]; rfl
  ensureHost_device {s : ℕ} {st st' : St V} {c : Cache} (h : ensureHost E s st = .ok (c, st')) :
      st'.cache .device = st.cache .device := by
    rw [ensureHost] at h
    rw [growHost_device h]
    cases hc : st.cache .host <;> rfl

theorem ensureDevice_spec {st : St V} (h : Inv E st) {s : ℕ} (hs : s ≤ 29) :
    ∃ c st', ensureDevice E s st = .ok (c, st') ∧ Inv E st' ∧ Grow st st' ∧ st'.cache .device = some c ∧ s < c.tw.length := by
  obtain ⟨c, st1, e, i, g, hc⟩ := singleDevice_spec h
  have hl := i.len .device c hc
  obtain ⟨c', st', e', i', g', hc', hl'⟩ := growDevice_spec (s + 1 - c.tw.length) i hc (by omega)
  refine ⟨c', st', ?_, i', g.trans g', hc', by omega⟩
  rw [ensureDevice, e, bok]
  exact e'

theorem ensure_spec {st : St V} (h : Inv E st) (d : Side) {s : ℕ} (hs : s ≤ 29) :
    ∃ c st', ensure E d s st = .ok (c, st') ∧ Inv E st' ∧ Grow st st' ∧ st'.cache d = some c ∧ s < c.tw.length := by
  cases d with
  | host => exact ensureHost_spec h hs
  | device => exact ensureDevice_spec h hs

theorem slice_spec {st : St V} (h : Inv E st) (d : Side) {s : ℕ} (hs : s ≤ 29) :
    ∃ c st' a, slice E d s st = .ok (⟨a, 2 ^ s⟩, st') ∧ Inv E st' ∧ Grow st st' ∧ st'.cache d = some c ∧
      c.tw[s]? = some a := by
  obtain ⟨c, st', e, i, g, hc, hl⟩ := ensure_spec h d hs
  have hg : c.tw[s]? = some c.tw[s] := List.getElem?_eq_getElem hl
  refine ⟨c, st', c.tw[s], ?_, i, g, hc, hg⟩
  rw [slice, e, bok]
  simp only [hg]
  rfl

theorem bigSlice_spec {st : St V} (h : Inv E st) (d : Side) {s : ℕ} (h2 : 2 ≤ s) (hs : s < sLimit) :
    ∃ c st' a, bigSlice E d s st = .ok (⟨⟨a, 2 ^ (s - 2)⟩, c.few, jLimit * s⟩, st') ∧ Inv E st' ∧ Grow st st' ∧
      st'.cache d = some c ∧ c.tw[s - 2]? = some a := by
  obtain ⟨c, st1, e, i, g, hc⟩ := single_spec h d
  obtain ⟨c', st', a, e', i', g', hc', ha⟩ := slice_spec i d (s := s - 2) (by unfold sLimit at hs; omega)
  obtain ⟨c2, hc2, f, _⟩ := g'.cache d c hc
  rw [hc'] at hc2
  have hcc : c' = c2 := Option.some.inj hc2
  subst hcc
  refine ⟨c', st', a, ?_, i', g.trans g', hc', ha⟩
  rw [bigSlice, slowAssert_true h2, bok, e, bok]
  simp only [e', bok, if_pos hs, f]
  rfl

theorem clear_spec {st : St V} (h : Inv E st) (d : Side) :
    ∃ c st1 st', clear E d st = .ok st' ∧ single E d st = .ok (c, st1) ∧ Inv E st' ∧ Grow st st1 ∧ st1.cache d = some c ∧
      st'.cache d = some { c with tw := [] } ∧ (∀ d', d' ≠ d → st'.cache d' = st1.cache d') ∧
      st'.hooks = st1.hooks ∧ st'.log = st1.log ∧ (∀ a, st'.live a = if a ∈ c.tw then none else st1.live a) := by
  obtain ⟨c, st1, e, i, g, hc⟩ := single_spec h d
  refine ⟨c, st1, (st1.free c.tw).setCache d { c with tw := [] }, ?_, e, ?_, g, hc, by rw [setCache_at, if_pos rfl],
    fun d' hd => by rw [setCache_at, if_neg hd]; rfl, rfl, rfl, fun a => rfl⟩
  · rw [clear, e]; rfl
  · have hfl : ∀ a, (st1.free c.tw).live a = if a ∈ c.tw then none else st1.live a := fun a => rfl
    have hcase : ∀ {d' c'}, ((st1.free c.tw).setCache d { c with tw := [] }).cache d' = some c' →
        (d' = d ∧ c' = { c with tw := [] }) ∨ (d' ≠ d ∧ st1.cache d' = some c') := by
      intro d' c' hc'
      rw [setCache_at] at hc'
      split_ifs at hc' with hdd
      · left; exact ⟨hdd, (Option.some.inj hc').symm⟩
      · right; exact ⟨hdd, hc'⟩
    have hlive : ∀ a, ((st1.free c.tw).setCache d { c with tw := [] }).live a = if a ∈ c.tw then none else st1.live a :=
      fun a => rfl
    refine ⟨?_, ?_, ?_, ?_, ?_, ?_⟩
    · intro a ha
      have := i.fresh a ha
      rw [hlive]; split_ifs <;> simp [this]
    · intro d' c' hc'
      rcases hcase hc' with ⟨rfl, rfl⟩ | ⟨hne, hc'⟩
      · rw [hlive, if_neg (i.sepFew _ c _ c hc hc)]; exact i.few _ c hc
      · rw [hlive, if_neg (i.sepFew _ c _ c' hc hc')]; exact i.few _ c' hc'
    · intro d' c' hc' j a hj
      rcases hcase hc' with ⟨rfl, rfl⟩ | ⟨hne, hc'⟩
      · simp at hj
      · rw [hlive, if_neg (i.sepTw d' c' d c hc' hc hne a (List.mem_of_getElem? hj))]; exact i.tw _ c' hc' j a hj
    · intro d1 c1 d2 c2 h1 h2
      rcases hcase h1 with ⟨rfl, rfl⟩ | ⟨hne, g1⟩
      · simp
      · rcases hcase h2 with ⟨rfl, rfl⟩ | ⟨hne2, h2⟩
        · exact i.sepFew d1 c1 _ c g1 hc
        · exact i.sepFew d1 c1 d2 c2 g1 h2
    · intro d1 c1 d2 c2 h1 h2 hne' a ha
      rcases hcase h1 with ⟨rfl, rfl⟩ | ⟨hne, g1⟩
      · simp at ha
      · rcases hcase h2 with ⟨rfl, rfl⟩ | ⟨hne2, h2⟩
        · simp
        · exact i.sepTw d1 c1 d2 c2 g1 h2 hne' a ha
    · intro d' c' hc'
      rcases hcase hc' with ⟨rfl, rfl⟩ | ⟨hne, hc'⟩
      · simp
      · exact i.len d' c' hc'

/-! ## Outcomes past the range of `int` -/

theorem growHost_ub (k : ℕ) (c : Cache) (st : St V) (h : c.tw.length ≤ 30) (hk : 31 ≤ c.tw.length + k) :
    growHost E k c st = .error .ub := by
  induction k generalizing c st with
  | zero => omega
  | succ k ih =>
    rw [growHost]
    simp only []
    split_ifs with hp
    · rfl
    · exact ih _ _ (by simp; omega) (by simp; omega)

theorem ensureHost_ub {st : St V} (h : Inv E st) {s : ℕ} (hs : 30 ≤ s) : ensureHost E s st = .error .ub := by
  obtain ⟨c, st1, e, i, g, hc⟩ := singleHost_spec h
  rw [ensureHost, e]
  exact growHost_ub _ _ _ (i.len _ _ hc) (by omega)

theorem growDevice_ub (k : ℕ) {st : St V} (h : Inv E st) {c : Cache} (hc : st.cache .device = some c)
    (hk : 31 ≤ c.tw.length + k) : growDevice E k c st = .error .ub := by
  induction k generalizing c st with
  | zero => have := h.len _ _ hc; omega
  | succ k ih =>
    rw [growDevice]
    by_cases hp : 30 ≤ c.tw.length
    · simp only [ensureHost_ub h hp, berr]
    · obtain ⟨ch, st1, e1, i1, g1, hh, hlt⟩ := ensureHost_spec h (s := c.tw.length) (by omega)
      have hc1 : st1.cache .device = some c := (growDevice_spec.ensureHost_device e1).trans hc
      have hg : ch.tw[c.tw.length]? = some ch.tw[c.tw.length] := List.getElem?_eq_getElem hlt
      have hr := read_ok (i1.tw .host ch hh _ _ hg)
      have hp := i1.push hc1 (show c.tw.length < 30 by omega)
      simp only [e1, bok, hg, hr]
      exact ih hp (c := { c with tw := c.tw ++ [st1.next] }) (by rw [setCache_at, if_pos rfl]) (by simp; omega)

theorem slice_ub {st : St V} (h : Inv E st) (d : Side) {s : ℕ} (hs : 30 ≤ s) : slice E d s st = .error .ub := by
  rw [slice]
  cases d with
  | host => rw [ensure, ensureHost_ub h hs, berr]
  | device =>
    obtain ⟨c, st1, e, i, g, hc⟩ := singleDevice_spec h
    rw [ensure, ensureDevice, e, bok]
    simp only []
    rw [growDevice_ub _ i hc (by omega), berr]

theorem bigSlice_ub {st : St V} (h : Inv E st) (d : Side) {s : ℕ} (hs : sLimit ≤ s) : bigSlice E d s st = .error .ub := by
  unfold sLimit at hs
  obtain ⟨c, st1, e, i, g, hc⟩ := single_spec h d
  rw [bigSlice, slowAssert_true (show s ≥ 2 by omega), bok, e, bok]
  simp only []
  by_cases hs' : s - 2 ≤ 29
  · obtain ⟨c', st', a, e', i', g', hc', ha⟩ := slice_spec i d (s := s - 2) hs'
    rw [e', bok]
    simp only []
    rw [if_neg (by unfold sLimit; omega)]
  · rw [slice_ub i d (by omega), berr]

/-! ## Steps and histories -/

/-- Hooks run by one call. -/
def ran (o : Op) (st : St V) : List Hook := match o with
  | .shutdown => st.hooks
  | _ => []

theorem runHooks_spec (l : List Hook) {st st' : St V} (h : Inv E st)
    (hin : ∀ d, Hook.clear d ∈ l → (st.cache d).isSome) (e : runHooks E l st = .ok st') :
    Inv E st' ∧ st'.hooks = st.hooks ∧ st'.log = st.log ++ l ∧ (∀ d, (st'.cache d).isSome = (st.cache d).isSome) ∧
      (∀ a, st.live a = none → st'.live a = none) ∧
      (∀ d c, st.cache d = some c → ∃ c', st'.cache d = some c' ∧ c'.few = c.few ∧
        (c'.tw = if Hook.clear d ∈ l then [] else c.tw) ∧
        ∀ a ∈ c.tw, st'.live a = if Hook.clear d ∈ l then none else st.live a) := by
  induction l generalizing st with
  | nil =>
    cases e
    exact ⟨h, rfl, by simp, fun _ => rfl, fun _ ha => ha, fun d c hc => ⟨c, hc, rfl, by simp, by simp⟩⟩
  | cons x l ih =>
    rw [runHooks] at e
    cases x with
    | user id reg =>
      rw [runHook] at e
      cases reg with
      | true => simp only [if_true, berr] at e; cases e
      | false =>
        simp only [Bool.false_eq_true, if_false, bok] at e
        have h1 : Inv E ({ st with log := st.log ++ [Hook.user id false] } : St V) :=
          ⟨h.fresh, h.few, h.tw, h.sepFew, h.sepTw, h.len⟩
        obtain ⟨i, a, b, c, fr, f⟩ := ih h1 (fun d hd => hin d (List.mem_cons_of_mem _ hd)) e
        refine ⟨i, a, by rw [b]; simp, c, fr, fun d c hc => ?_⟩
        obtain ⟨c', p, q, r, s⟩ := f d c hc
        exact ⟨c', p, q, by rw [r]; simp, fun a ha => by rw [s a ha]; simp⟩
    | clear d0 =>
      rw [runHook] at e
      obtain ⟨c0, hc0⟩ := Option.isSome_iff_exists.mp (hin d0 (by simp))
      obtain ⟨c1, st1, st2, e2, es, i2, g, hc1, hc2, ho, hhk, hlog, hlive⟩ := clear_spec h d0
      -- the singleton exists, so it is not constructed here
      have hs : single E d0 st = .ok (c0, st) := by
        cases d0 with
        | host => simp only [single, singleHost, hc0]
        | device => simp only [single, singleDevice, hc0]
      rw [hs] at es
      cases es
      rw [e2, bok] at e
      simp only [pok, bok] at e
      have h1 : Inv E ({ st2 with log := st2.log ++ [Hook.clear d0] } : St V) :=
        ⟨i2.fresh, i2.few, i2.tw, i2.sepFew, i2.sepTw, i2.len⟩
      have hsome : ∀ d, (st2.cache d).isSome = (st.cache d).isSome := by
        intro d
        by_cases hd : d = d0
        · subst hd; simp [hc2, hc0]
        · rw [ho d hd]
      obtain ⟨i, a, b, c, fr, f⟩ := ih h1 (fun d hd => by
        have := hin d (List.mem_cons_of_mem _ hd)
        rw [← hsome d] at this; exact this) e
      refine ⟨i, by rw [a, ← hhk], by rw [b]; simp [hlog], fun d => by rw [c]; exact hsome d, fun x hx => fr x ?_, fun d cc hcc => ?_⟩
      · show st2.live x = none
        rw [hlive x]; split_ifs <;> simp [hx]
      by_cases hd : d = d0
      · subst hd
        rw [hc0] at hcc
        cases hcc
        obtain ⟨c', p, q, r, s⟩ := f d _ hc2
        refine ⟨c', p, q, by rw [r]; simp, fun x hx => ?_⟩
        simp only [List.mem_cons, true_or, if_true]
        -- freed addresses stay free
        exact fr x (by simpa [hx] using hlive x)
      · have hcc' : st2.cache d = some cc := by rw [ho d hd]; exact hcc
        obtain ⟨c', p, q, r, s⟩ := f d cc hcc'
        have hmem : Hook.clear d ∈ Hook.clear d0 :: l ↔ Hook.clear d ∈ l := by simp [hd]
        refine ⟨c', p, q, by rw [r]; simp only [hmem], fun x hx => ?_⟩
        rw [s x hx]
        simp only [hmem]
        split_ifs
        · rfl
        · show st2.live x = _
          rw [hlive x, if_neg (h.sepTw d cc d0 c0 hcc hc0 hd x hx)]

theorem slice_ok {st st' : St V} (h : Inv E st) {d : Side} {s : ℕ} {t : TwiddleSlice}
    (e : slice E d s st = .ok (t, st')) : s ≤ 29 ∧ Inv E st' ∧ Grow st st' := by
  by_cases hs : s ≤ 29
  · obtain ⟨c, st1, a, e1, i, g, -⟩ := slice_spec h d hs
    rw [e1] at e
    cases e
    exact ⟨hs, i, g⟩
  · rw [slice_ub h d (by omega)] at e
    cases e

theorem bigSlice_ok {st st' : St V} (h : Inv E st) {d : Side} {s : ℕ} {t : BigSlice}
    (e : bigSlice E d s st = .ok (t, st')) : 2 ≤ s ∧ s < sLimit ∧ Inv E st' ∧ Grow st st' := by
  by_cases h2 : 2 ≤ s
  · by_cases hs : s < sLimit
    · obtain ⟨c, st1, a, e1, i, g, -⟩ := bigSlice_spec h d h2 hs
      rw [e1] at e
      cases e
      exact ⟨h2, hs, i, g⟩
    · rw [bigSlice_ub h d (by omega)] at e
      cases e
  · rw [bigSlice, slowAssert_false (by omega), berr] at e
    cases e

/-- One call keeps both invariants. -/
theorem step_inv {o : Op} {st st' : St V} (h : Inv E st) (hh : HInv st) (e : step E o st = .ok st') :
    Inv E st' ∧ HInv st' := by
  cases o with
  | slice d s =>
    rw [step, bind_ok_iff] at e
    obtain ⟨⟨t, st1⟩, e1, e2⟩ := e
    cases e2
    obtain ⟨-, i, g⟩ := slice_ok h e1
    exact ⟨i, hh.grow g⟩
  | bigSlice d s =>
    rw [step, bind_ok_iff] at e
    obtain ⟨⟨t, st1⟩, e1, e2⟩ := e
    cases e2
    obtain ⟨-, -, i, g⟩ := bigSlice_ok h e1
    exact ⟨i, hh.grow g⟩
  | clear d =>
    obtain ⟨c, st1, st2, e1, -, i, g, hc, hc2, ho, hk, -, -⟩ := clear_spec h d
    rw [step, e1] at e
    cases e
    refine ⟨i, fun d' => ?_⟩
    rw [hk, hh.grow g d']
    by_cases hd : d' = d
    · subst hd; simp [hc, hc2]
    · rw [ho d' hd]
  | onShutdown id reg =>
    cases e
    refine ⟨⟨h.fresh, h.few, h.tw, h.sepFew, h.sepTw, h.len⟩, fun d => ?_⟩
    have := hh d
    simp only [onShutdown, List.count_append]
    rw [this]
    simp
    rfl
  | shutdown =>
    have hin : ∀ d, Hook.clear d ∈ st.hooks → (st.cache d).isSome := by
      intro d hd
      by_contra hc
      have h1 := hh d
      rw [if_neg hc] at h1
      exact absurd (List.count_pos_iff.mpr hd) (by omega)
    obtain ⟨i, a, -, c, -⟩ := runHooks_spec st.hooks h hin e
    refine ⟨i, fun d => ?_⟩
    rw [a, c d]
    exact hh d

theorem run_inv {l : List Op} {st st' : St V} (h : Inv E st) (hh : HInv st) (e : run E l st = .ok st') :
    Inv E st' ∧ HInv st' := by
  induction l generalizing st with
  | nil => cases e; exact ⟨h, hh⟩
  | cons o l ih =>
    rw [run, bind_ok_iff] at e
    obtain ⟨st1, e1, e2⟩ := e
    obtain ⟨i1, hh1⟩ := step_inv h hh e1
    exact ih i1 hh1 e2

/-- A cache entry survives calls that do not clear it. -/
theorem step_keep {o : Op} {st st' : St V} (h : Inv E st) (e : step E o st = .ok st')
    {d : Side} (ho : o ≠ .clear d) (hs : o ≠ .shutdown) {c : Cache} (hc : st.cache d = some c) :
    ∃ c', st'.cache d = some c' ∧ c'.few = c.few ∧ c.tw <+: c'.tw := by
  cases o with
  | slice d s =>
    rw [step, bind_ok_iff] at e
    obtain ⟨⟨t, st1⟩, e1, e2⟩ := e
    cases e2
    exact (slice_ok h e1).2.2.cache _ _ hc
  | bigSlice d s =>
    rw [step, bind_ok_iff] at e
    obtain ⟨⟨t, st1⟩, e1, e2⟩ := e
    cases e2
    exact (bigSlice_ok h e1).2.2.2.cache _ _ hc
  | clear d' =>
    obtain ⟨c1, st1, st2, e1, -, i, g, hc1, hc2, hoth, hk, -, -⟩ := clear_spec h d'
    rw [step, e1] at e
    cases e
    rw [hoth d (by rintro rfl; exact ho rfl)]
    exact g.cache _ _ hc
  | onShutdown id reg =>
    cases e
    exact ⟨c, hc, rfl, List.prefix_refl _⟩
  | shutdown => exact absurd rfl hs

/-- The array `few` survives every call. -/
theorem step_few {o : Op} {st st' : St V} (h : Inv E st) (hh : HInv st) (e : step E o st = .ok st')
    {d : Side} {c : Cache} (hc : st.cache d = some c) : ∃ c', st'.cache d = some c' ∧ c'.few = c.few := by
  by_cases h1 : o = .clear d
  · subst h1
    obtain ⟨c1, st1, st2, e1, -, i, g, hc1, hc2, hoth, hk, -, -⟩ := clear_spec h d
    rw [step, e1] at e
    cases e
    obtain ⟨c3, hc3, f, -⟩ := g.cache _ _ hc
    rw [hc1] at hc3
    cases hc3
    exact ⟨_, hc2, f⟩
  · by_cases h2 : o = .shutdown
    · subst h2
      have hin : ∀ d, Hook.clear d ∈ st.hooks → (st.cache d).isSome := by
        intro d hd
        by_contra hc
        have h1 := hh d
        rw [if_neg hc] at h1
        exact absurd (List.count_pos_iff.mpr hd) (by omega)
      obtain ⟨-, -, -, -, -, f⟩ := runHooks_spec st.hooks h hin e
      obtain ⟨c', p, q, -⟩ := f d c hc
      exact ⟨c', p, q⟩
    · obtain ⟨c', p, q, -⟩ := step_keep h e h1 h2 hc
      exact ⟨c', p, q⟩

theorem run_keep {l : List Op} {st st' : St V} (h : Inv E st) (hh : HInv st) (e : run E l st = .ok st')
    {d : Side} (hl : ∀ o ∈ l, o ≠ .clear d ∧ o ≠ .shutdown) {c : Cache} (hc : st.cache d = some c) :
    ∃ c', st'.cache d = some c' ∧ c'.few = c.few ∧ c.tw <+: c'.tw := by
  induction l generalizing st c with
  | nil => cases e; exact ⟨c, hc, rfl, List.prefix_refl _⟩
  | cons o l ih =>
    rw [run, bind_ok_iff] at e
    obtain ⟨st1, e1, e2⟩ := e
    obtain ⟨i1, hh1⟩ := step_inv h hh e1
    have ho := hl o (by simp)
    obtain ⟨c1, hc1, f1, p1⟩ := step_keep h e1 ho.1 ho.2 hc
    obtain ⟨c2, hc2, f2, p2⟩ := ih i1 hh1 e2 (fun o ho => hl o (List.mem_cons_of_mem _ ho)) hc1
    exact ⟨c2, hc2, f2.trans f1, p1.trans p2⟩

theorem run_few {l : List Op} {st st' : St V} (h : Inv E st) (hh : HInv st) (e : run E l st = .ok st')
    {d : Side} {c : Cache} (hc : st.cache d = some c) : ∃ c', st'.cache d = some c' ∧ c'.few = c.few := by
  induction l generalizing st c with
  | nil => cases e; exact ⟨c, hc, rfl⟩
  | cons o l ih =>
    rw [run, bind_ok_iff] at e
    obtain ⟨st1, e1, e2⟩ := e
    obtain ⟨i1, hh1⟩ := step_inv h hh e1
    obtain ⟨c1, hc1, f1⟩ := step_few h hh e1 hc
    obtain ⟨c2, hc2, f2⟩ := ih i1 hh1 e2 hc1
    exact ⟨c2, hc2, f2.trans f1⟩

/-! ## Shutdown -/

theorem HInv.constructed {st : St V} (hh : HInv st) {d : Side} (hd : Hook.clear d ∈ st.hooks) :
    (st.cache d).isSome := by
  by_contra hc
  have h1 := hh d
  rw [if_neg hc] at h1
  exact absurd (List.count_pos_iff.mpr hd) (by omega)

theorem HInv.hook {st : St V} (hh : HInv st) {d : Side} {c : Cache} (hc : st.cache d = some c) :
    Hook.clear d ∈ st.hooks := by
  have h1 := hh d
  rw [hc] at h1
  simp only [Option.isSome_some, if_true] at h1
  exact List.count_pos_iff.mp (by omega)

theorem runHooks_ok (l : List Hook) {st : St V} (h : Inv E st) (hl : ∀ id, Hook.user id true ∉ l) :
    ∃ st', runHooks E l st = .ok st' := by
  induction l generalizing st with
  | nil => exact ⟨st, rfl⟩
  | cons x l ih =>
    rw [runHooks]
    cases x with
    | user id reg =>
      cases reg with
      | true => exact absurd (by simp) (hl id)
      | false =>
        simp only [runHook, Bool.false_eq_true, if_false, bok]
        exact ih ⟨h.fresh, h.few, h.tw, h.sepFew, h.sepTw, h.len⟩ (fun id hm => hl id (List.mem_cons_of_mem _ hm))
    | clear d =>
      obtain ⟨c1, st1, st2, e2, es, i2, -⟩ := clear_spec h d
      simp only [runHook, e2, bok, pok]
      exact ih ⟨i2.fresh, i2.few, i2.tw, i2.sepFew, i2.sepTw, i2.len⟩ (fun id hm => hl id (List.mem_cons_of_mem _ hm))

end Mandelbrot.Runtime
