import Verif.Runtime.Stream

/-!
# C76: work on the device behaves as if every call finished before it returned
-/

namespace Mandelbrot.Props
open Mandelbrot.Stream

namespace SSpec

variable {σ μ : Type}

/-- One call of the host, everything done when it returns; nothing if the host is finished. -/
def next (P : σ → Option (Op σ μ)) (c : σ × μ) : Option (Res (σ × μ)) :=
  match P c.1 with
  | none => none
  | some (.host (.ok s)) => some (.ok (s, c.2))
  | some (.host (.error e)) => some (.error e)
  | some (.launch t s) => some (match t.act c.2 with
    | .ok m => .ok (s, m)
    | .error e => .error e)
  | some (.copy k) => some (match k c.2 with
    | .ok (m, s) => .ok (s, m)
    | .error e => .error e)
  | some (.sync s) => some (.ok (s, c.2))

/-- `n` calls, one after the other. -/
inductive Runs (P : σ → Option (Op σ μ)) : ℕ → σ × μ → Res (σ × μ) → Prop
  | zero {a} : Runs P 0 a (.ok a)
  | succ {n a b r} : Runs P n a (.ok b) → next P b = some r → Runs P (n + 1) a r

/-- Run one call after the other, the program never fails. -/
def Safe (P : σ → Option (Op σ μ)) (a : σ × μ) : Prop := ∀ n e, ¬Runs P n a (.error e)

/-- Only the two streams of the program are used. -/
def TwoStreams (P : σ → Option (Op σ μ)) : Prop := ∀ s t s', P s = some (.launch t s') → t.stream = 0 ∨ t.stream = ours

/-- Tasks one after the other. -/
def all : List (Job μ) → μ → Res μ
  | [], m => .ok m
  | t :: q, m => match t.act m with
    | .ok m => all q m
    | .error e => .error e

end SSpec
open SSpec

variable {σ μ : Type} {P : σ → Option (Op σ μ)}

theorem stream_all_snoc : ∀ (q : List (Job μ)) (t : Job μ) {m m' : μ}, all q m = .ok m' → all (q ++ [t]) m = t.act m'
  | [], t, m, m', h => by
    obtain rfl : m = m' := by simpa [all] using h
    simp only [List.nil_append, all]
    cases t.act m <;> rfl
  | u :: q, t, m, m', h => by
    simp only [List.cons_append, all] at h ⊢
    cases hu : u.act m with
    | error e => rw [hu] at h; simp at h
    | ok m1 => rw [hu] at h; exact stream_all_snoc q t h

theorem stream_follow {a b : ℕ} (ha : a = 0 ∨ a = ours) (hb : b = 0 ∨ b = ours) : mustFollow true a b = true := by
  rcases ha with rfl | rfl <;> rcases hb with rfl | rfl <;> rfl

theorem stream_pre_nil {pre : List (Job μ)} {b : ℕ} (hp : ∀ u ∈ pre, u.stream = 0 ∨ u.stream = ours) (hb : b = 0 ∨ b = ours)
    (h : ∀ u ∈ pre, mustFollow true u.stream b = false) : pre = [] := by
  cases pre with
  | nil => rfl
  | cons u pre =>
    have h1 := h u (by simp)
    rw [stream_follow (hp u (by simp)) hb] at h1
    cases h1

/-- The host is where it would be after `j` calls that finish at once; the tasks that are left do the rest. -/
def StreamInv (P : σ → Option (Op σ μ)) (a : σ × μ) (n : ℕ) : Cfg σ μ → Prop
  | .failed _ => False
  | .running s m q => ∃ j m', Runs P j a (.ok (s, m')) ∧ all q m = .ok m' ∧ (∀ u ∈ q, u.stream = 0 ∨ u.stream = ours) ∧
      n + q.length ≤ 2 * j ∧ j ≤ n

theorem stream_inv (h2 : TwoStreams P) {s : σ} {m : μ} (hs : Safe P (s, m)) {n : ℕ} {c0 c : Cfg σ μ} (h0 : c0 = .running s m [])
    (h : Steps true P n c0 c) : StreamInv P (s, m) n c := by
  induction h with
  | zero => subst h0; exact ⟨0, m, .zero, rfl, by simp, by simp, le_refl _⟩
  | @succ n a b c hab hbc ih =>
    have ih := ih h0
    cases hbc with
    | @device s1 m1 m1' t pre post hpre hact =>
      obtain ⟨j, m', r, ha, hq, hn, hj⟩ := ih
      have : pre = [] := stream_pre_nil (fun u hu => hq u (by simp [hu])) (hq t (by simp)) hpre
      subst this
      simp only [List.nil_append, all, hact] at ha
      refine ⟨j, m', r, ha, fun u hu => hq u (by simp at hu ⊢; exact .inr hu), ?_, by omega⟩
      simp only [List.nil_append, List.length_cons] at hn ⊢
      omega
    | @deviceErr s1 m1 e t pre post hpre hact =>
      obtain ⟨j, m', r, ha, hq, hn, hj⟩ := ih
      have : pre = [] := stream_pre_nil (fun u hu => hq u (by simp [hu])) (hq t (by simp)) hpre
      subst this
      simp only [List.nil_append, all, hact] at ha
      simp at ha
    | @host s1 s2 m1 q hp =>
      obtain ⟨j, m', r, ha, hq, hn, hj⟩ := ih
      exact ⟨j + 1, m', .succ r (by simp only [next, hp]), ha, hq, by omega, by omega⟩
    | @hostErr s1 e m1 q hp =>
      obtain ⟨j, m', r, ha, hq, hn, hj⟩ := ih
      exact absurd (Runs.succ r (by simp only [next, hp])) (hs (j + 1) e)
    | @launch s1 s2 m1 q t hp =>
      obtain ⟨j, m', r, ha, hq, hn, hj⟩ := ih
      cases hact : t.act m' with
      | error e => exact absurd (Runs.succ r (by simp only [next, hp, hact])) (hs (j + 1) e)
      | ok m2 =>
        refine ⟨j + 1, m2, .succ r (by simp only [next, hp, hact]), by rw [stream_all_snoc q t ha, hact], ?_, ?_, by omega⟩
        · intro u hu
          rcases List.mem_append.mp hu with hu | hu
          · exact hq u hu
          · rw [List.mem_singleton.mp hu]; exact h2 _ _ _ hp
        · simp only [List.length_append, List.length_singleton]; omega
    | @copy s1 s2 m1 m2 q k hp hw hk =>
      obtain ⟨j, m', r, ha, hq, hn, hj⟩ := ih
      have : q = [] := stream_pre_nil hq (.inl rfl) hw
      subst this
      obtain rfl : m1 = m' := by simpa [all] using ha
      exact ⟨j + 1, m2, .succ r (by simp only [next, hp, hk]), rfl, by simp, by simp at hn ⊢; omega, by omega⟩
    | @copyErr s1 e m1 q k hp hw hk =>
      obtain ⟨j, m', r, ha, hq, hn, hj⟩ := ih
      have : q = [] := stream_pre_nil hq (.inl rfl) hw
      subst this
      obtain rfl : m1 = m' := by simpa [all] using ha
      exact absurd (Runs.succ r (by simp only [next, hp, hk])) (hs (j + 1) e)
    | @sync s1 s2 m1 q hp hw =>
      obtain ⟨j, m', r, ha, hq, hn, hj⟩ := ih
      exact ⟨j + 1, m', .succ r (by simp only [next, hp]), ha, hq, by omega, by omega⟩

/-- **C76.** Whatever the device does when, the host sees what it would see if every call finished before it returned: no failure, and at
any time a state that it has then too.  What has been issued and has not run brings the memory to where it would be. -/
theorem C76_refines (h2 : TwoStreams P) {s : σ} {m : μ} (hs : Safe P (s, m)) {n : ℕ} {c : Cfg σ μ}
    (h : Steps true P n (.running s m []) c) :
    ∃ s' m' q, c = .running s' m' q ∧ ∃ j m'', Runs P j (s, m) (.ok (s', m'')) ∧ all q m' = .ok m'' := by
  have hi := stream_inv h2 hs rfl h
  cases c with
  | failed e => exact hi.elim
  | running s' m' q =>
    obtain ⟨j, m'', r, ha, _⟩ := hi
    exact ⟨s', m', q, rfl, j, m'', r, ha⟩

/-- **C76.** A copy waits: as long as something issued before has not run, the host does not get past it. -/
theorem C76_copy (h2 : TwoStreams P) {s : σ} {m : μ} (hs : Safe P (s, m)) {n : ℕ} {s1 : σ} {m1 : μ} {q : List (Job μ)}
    {k : μ → Res (μ × σ)} (h : Steps true P n (.running s m []) (.running s1 m1 q)) (hp : P s1 = some (.copy k)) (hq : q ≠ []) :
    ∀ s2 m2 q2, Step true P (.running s1 m1 q) (.running s2 m2 q2) → s2 = s1 := by
  have hi := stream_inv h2 hs rfl h
  obtain ⟨j, m', r, ha, hq', _⟩ := hi
  intro s2 m2 q2 hst
  generalize hc : Cfg.running s1 m1 q = c1 at hst
  generalize hc2 : Cfg.running s2 m2 q2 = c2 at hst
  cases hst with
  | device => cases hc; cases hc2; rfl
  | deviceErr => cases hc2
  | host hp' => cases hc; rw [hp] at hp'; cases hp'
  | hostErr => cases hc2
  | launch hp' => cases hc; rw [hp] at hp'; cases hp'
  | copy _ hw _ => cases hc; exact absurd (stream_pre_nil hq' (.inl rfl) hw) hq
  | copyErr => cases hc2
  | sync hp' _ => cases hc; rw [hp] at hp'; cases hp'

theorem stream_runs_det {n : ℕ} {a : σ × μ} {r r' : Res (σ × μ)} (h : Runs P n a r) (h' : Runs P n a r') : r = r' := by
  induction n generalizing r r' with
  | zero => cases h; cases h'; rfl
  | succ n ih =>
    cases h with
    | succ h1 h2 =>
      cases h' with
      | succ h1' h2' =>
        obtain rfl := Except.ok.inj (ih h1 h1')
        exact Option.some.inj (h2.symm.trans h2')

theorem stream_runs_prefix {n j : ℕ} {a : σ × μ} {r : Res (σ × μ)} (h : Runs P n a r) (hj : j < n) : ∃ b r', Runs P j a (.ok b) ∧ next P b = some r' := by
  induction n generalizing r with
  | zero => omega
  | succ n ih =>
    cases h with
    | succ h1 h2 =>
      rcases Nat.lt_succ_iff_lt_or_eq.mp hj with hj | rfl
      · exact ih h1 hj
      · exact ⟨_, _, h1, h2⟩

/-- **C76.** If the program ends when every call finishes before it returns, it ends in every order that the device may choose, after at
most twice as many steps, and always with the same result: as long as it has not ended there is a next step, and when the host has
finished and nothing is left to run, host and device are where they would be. -/
theorem C76_ends (h2 : TwoStreams P) {s : σ} {m : μ} (hs : Safe P (s, m)) {N : ℕ} {s' : σ} {m' : μ} (hr : Runs P N (s, m) (.ok (s', m')))
    (hend : P s' = none) {n : ℕ} {c : Cfg σ μ} (h : Steps true P n (.running s m []) c) :
    n ≤ 2 * N ∧ (c = .running s' m' [] ∨ ∃ c', Step true P c c') := by
  have hi := stream_inv h2 hs rfl h
  cases c with
  | failed e => exact hi.elim
  | running s1 m1 q =>
    obtain ⟨j, m2, r, ha, hq, hn, _⟩ := hi
    have hj : j ≤ N := by
      by_contra hc
      obtain ⟨b, r', e1, e2⟩ := stream_runs_prefix r (show N < j by omega)
      obtain rfl := Except.ok.inj (stream_runs_det hr e1)
      simp [next, hend] at e2
    refine ⟨by omega, ?_⟩
    cases q with
    | cons t q =>
      right
      simp only [all] at ha
      cases hact : t.act m1 with
      | error e => rw [hact] at ha; simp at ha
      | ok m3 => exact ⟨_, Step.device (pre := []) (by simp) hact⟩
    | nil =>
      obtain rfl : m1 = m2 := by simpa [all] using ha
      cases hp : P s1 with
      | none =>
        left
        rcases Nat.lt_or_ge j N with hlt | hge
        · obtain ⟨b, r', e1, e2⟩ := stream_runs_prefix hr hlt
          obtain rfl := Except.ok.inj (stream_runs_det r e1)
          simp [next, hp] at e2
        · obtain rfl : j = N := by omega
          have := Except.ok.inj (stream_runs_det r hr)
          obtain ⟨rfl, rfl⟩ := Prod.mk.inj this
          rfl
      | some o =>
        right
        cases o with
        | host x => cases x with
          | ok s2 => exact ⟨_, .host hp⟩
          | error e => exact ⟨_, .hostErr hp⟩
        | launch t s2 => exact ⟨_, .launch hp⟩
        | copy k =>
          cases hk : k m1 with
          | ok x => exact ⟨_, .copy (m' := x.1) (s' := x.2) hp (by simp) hk⟩
          | error e => exact ⟨_, .copyErr hp (by simp) hk⟩
        | sync s2 => exact ⟨_, .sync hp (by simp)⟩

/-! ## Orders that other rules would allow -/

/-- A kernel in the default stream that adds one, then one in the other stream that doubles, then the number is read. -/
def raceProgram : ℕ × ℕ → Option (Op (ℕ × ℕ) ℕ)
  | (0, x) => some (.launch ⟨0, fun m => .ok (m + 1)⟩ (1, x))
  | (1, x) => some (.launch ⟨ours, fun m => .ok (2 * m)⟩ (2, x))
  | (2, _) => some (.copy fun m => .ok (m, (3, m)))
  | _ => none

/-- **C76.** The rule for the legacy default stream is needed, since loops and serial functions are issued to different streams: with a
default stream that does not wait for others, the host may read a result that it never gets if every call finishes before it returns. -/
theorem C76_streams_witness : TwoStreams raceProgram ∧ Runs raceProgram 3 ((0, 0), 3) (.ok ((3, 8), 8)) ∧
    ∃ n, Steps false raceProgram n (.running (0, 0) 3 []) (.running (3, 7) 7 []) := by
  refine ⟨?_, .succ (.succ (.succ .zero rfl) rfl) rfl, 5, ?_⟩
  · rintro ⟨i, x⟩ t s' h
    match i with
    | 0 => simp only [raceProgram, Option.some.injEq, Op.launch.injEq] at h; rw [← h.1]; exact .inl rfl
    | 1 => simp only [raceProgram, Option.some.injEq, Op.launch.injEq] at h; rw [← h.1]; exact .inr rfl
    | 2 => simp [raceProgram] at h
    | n + 3 => simp [raceProgram] at h
  · have h1 : Step false raceProgram (.running (0, 0) 3 []) (.running (1, 0) 3 [⟨0, fun m => .ok (m + 1)⟩]) := .launch rfl
    have h2 : Step false raceProgram (.running (1, 0) 3 [⟨0, fun m => .ok (m + 1)⟩])
        (.running (2, 0) 3 [⟨0, fun m => .ok (m + 1)⟩, ⟨ours, fun m => .ok (2 * m)⟩]) := .launch rfl
    have h3 : Step false raceProgram (.running (2, 0) 3 [⟨0, fun m => .ok (m + 1)⟩, ⟨ours, fun m => .ok (2 * m)⟩])
        (.running (2, 0) 6 [⟨0, fun m => .ok (m + 1)⟩]) :=
      .device (pre := [⟨0, fun m => .ok (m + 1)⟩]) (t := ⟨ours, fun m => .ok (2 * m)⟩) (post := [])
        (by intro u hu; rw [List.mem_singleton.mp hu]; rfl) rfl
    have h4 : Step false raceProgram (.running (2, 0) 6 [⟨0, fun m => .ok (m + 1)⟩]) (.running (2, 0) 7 []) :=
      .device (pre := []) (t := ⟨0, fun m => .ok (m + 1)⟩) (post := []) (by simp) rfl
    have h5 : Step false raceProgram (.running (2, 0) 7 []) (.running (3, 7) 7 []) := .copy rfl (by simp) rfl
    exact .succ (.succ (.succ (.succ (.succ .zero h1) h2) h3) h4) h5

/-- A kernel in the default stream, then `cuda_sync`. -/
def syncProgram : ℕ → Option (Op ℕ ℕ)
  | 0 => some (.launch ⟨0, fun m => .ok (m + 1)⟩ 1)
  | 1 => some (.sync 2)
  | _ => none

/-- **C76.** `cuda_sync` waits for one of the two streams: a loop issued before it need not have run when it returns. -/
theorem C76_sync_witness : ∃ n t, Steps true syncProgram n (.running 0 3 []) (.running 2 3 [t]) :=
  ⟨2, ⟨0, fun m => .ok (m + 1)⟩, .succ (.succ .zero (.launch rfl)) (.sync rfl (by
    intro u hu; rw [List.nil_append, List.mem_singleton] at hu; rw [hu]; decide))⟩

/-- **C76.** It does wait for what was issued to `stream()`. -/
theorem C76_sync {legacy : Bool} {s s1 : σ} {m m1 : μ} {q q1 : List (Job μ)} (hp : P s = some (.sync s1)) (hne : s1 ≠ s)
    (h : Step legacy P (.running s m q) (.running s1 m1 q1)) : m1 = m ∧ q1 = q ∧ ∀ t ∈ q, t.stream ≠ ours := by
  generalize hc : Cfg.running s m q = c1 at h
  generalize hc2 : Cfg.running s1 m1 q1 = c2 at h
  cases h with
  | device => cases hc; cases hc2; exact absurd rfl hne
  | deviceErr => cases hc2
  | host hp' => cases hc; rw [hp] at hp'; cases hp'
  | hostErr => cases hc2
  | launch hp' => cases hc; rw [hp] at hp'; cases hp'
  | copy hp' => cases hc; rw [hp] at hp'; cases hp'
  | copyErr => cases hc2
  | sync _ hw => cases hc; cases hc2; exact ⟨rfl, rfl, hw⟩

/-! ## Copies -/

variable {K : Type}

theorem stream_u64 {a b : ℤ} (ha : 0 ≤ a) (hb : 0 ≤ b) : (toU64 a ≤ toU64 b) ↔ a ≤ b := by
  rw [toU64_of_nonneg ha, toU64_of_nonneg hb]

/-- **C76.** A series of the host is copied to the device if there is room for its stored terms: counts and terms are those of the host
series, and nothing else on the device changes. -/
theorem C76_to_device {y : DSer} {x : Ser K} {m : Mem K} {l : List K} (h0 : 0 ≤ x.nonzero) (hk : x.nonzero ≤ x.known)
    (hl : x.nonzero ≤ y.limit) (hb : m y.block = some l) (hlen : (l.length : ℤ) = y.limit) :
    ∃ m', seriesToDevice y x m = .ok (⟨y.limit, x.known, x.nonzero, y.block⟩, m') ∧ (∀ b, b ≠ y.block → m' b = m b) ∧
      ∃ l', m' y.block = some l' ∧ l'.length = l.length ∧ ∀ i : ℕ, l'[i]? = if (i : ℤ) < x.nonzero then some (x.data i) else l[i]? := by
  have hlt : (terms x).length = x.nonzero.toNat := by simp [terms]
  have hset : y.setCounts x.known x.nonzero = .ok ⟨y.limit, x.known, x.nonzero, y.block⟩ := by
    unfold DSer.setCounts
    rw [slowAssert_true ((stream_u64 h0 (by omega)).mpr (by omega))]
    rfl
  have hstart : ∀ m', hostToDevice (DSer.span ⟨y.limit, x.known, x.nonzero, y.block⟩) (terms x) m = .ok m' →
      seriesToDevice y x m = .ok (⟨y.limit, x.known, x.nonzero, y.block⟩, m') := by
    intro m' hm
    unfold seriesToDevice
    rw [slowAssert_true (show y.limit ≥ x.nonzero from hl), bok, hset, bok, hm, bok]
    rfl
  have hh : hostToDevice (DSer.span ⟨y.limit, x.known, x.nonzero, y.block⟩) (terms x) m = m.write ⟨y.block, 0, x.nonzero.toNat⟩ (terms x) := by
    unfold hostToDevice
    rw [slowAssert_true (by rw [hlt]; rfl), bok]
    rfl
  by_cases hz : x.nonzero.toNat = 0
  · refine ⟨m, hstart m ?_, fun _ _ => rfl, l, hb, rfl, fun i => ?_⟩
    · rw [hh]; unfold Mem.write; rw [if_pos (by rw [hlt, hz])]
    · rw [if_neg (by omega)]
  · refine ⟨Function.update m y.block (some (terms x ++ l.drop x.nonzero.toNat)), hstart _ ?_, fun b hne => Function.update_of_ne hne _ _, _,
      Function.update_self _ _ _, ?_, fun i => ?_⟩
    · rw [hh]
      unfold Mem.write
      rw [if_neg (by rw [hlt]; exact hz)]
      simp only [hb]
      rw [if_pos (by rw [hlt]; omega)]
      simp [hlt]
    · rw [List.length_append, List.length_drop, hlt]; omega
    · by_cases hi : (i : ℤ) < x.nonzero
      · rw [if_pos hi, List.getElem?_append_left (by rw [hlt]; omega)]
        simp only [terms, List.getElem?_map, List.getElem?_range (show i < x.nonzero.toNat by omega)]
        rfl
      · rw [if_neg hi, List.getElem?_append_right (by rw [hlt]; omega), List.getElem?_drop, hlt]
        congr 1; omega

/-- **C76.** Without room for the stored terms the copy to the device is refused. -/
theorem C76_to_device_assert {y : DSer} {x : Ser K} {m : Mem K} (hl : y.limit < x.nonzero) : seriesToDevice y x m = .error .assertion := by
  unfold seriesToDevice
  rw [slowAssert_false (by omega)]
  rfl

/-- **C76.** `host_copy` returns a series with the counts of the one on the device and its stored terms, with no spare room. -/
theorem C76_host_copy {x : DSer} {m : Mem K} {l : List K} (junk : ℕ → K) (h0 : 0 ≤ x.nonzero) (hk : x.nonzero ≤ x.known)
    (hb : m x.block = some l) (hlen : x.nonzero ≤ l.length) :
    ∃ z, hostCopy x junk m = .ok z ∧ z.known = x.known ∧ z.nonzero = x.nonzero ∧ z.limit = x.nonzero ∧
      ∀ i : ℕ, (i : ℤ) < x.nonzero → some (z.data i) = l[i]? := by
  have hset : (Ser.new x.nonzero junk).setCounts x.known x.nonzero = .ok ⟨x.nonzero, x.known, x.nonzero, junk⟩ := by
    unfold Ser.setCounts Ser.new
    simp only [relu_of_nonneg h0]
    rw [slowAssert_true ((stream_u64 h0 (by omega)).mpr (by omega))]
    rfl
  have hread : m.read x.span = .ok (l.take x.nonzero.toNat) := by
    unfold Mem.read DSer.span
    by_cases hz : x.nonzero.toNat = 0
    · simp [hz]
    · simp only [hz, if_false, hb]
      rw [if_pos (by omega)]
      simp
  refine ⟨⟨x.nonzero, x.known, x.nonzero, fun i => (l.take x.nonzero.toNat).getD i (junk i)⟩, ?_, rfl, rfl, rfl, fun i hi => ?_⟩
  · unfold hostCopy seriesToHost deviceToHost
    rw [slowAssert_true (by simp [Ser.new, relu_of_nonneg h0]), bok, hset, bok,
      slowAssert_true (show (⟨x.nonzero, x.known, x.nonzero, junk⟩ : Ser K).nonzero.toNat = x.span.len from rfl), bok, hread, bok]
    rfl
  · have h1 : i < l.length := by omega
    simp only [List.getD_eq_getElem?_getD, List.getElem?_take_of_lt (show i < x.nonzero.toNat by omega), List.getElem?_eq_getElem h1,
      Option.getD_some]

/-- **C76.** A series that is copied to the device and back is the same series. -/
theorem C76_round_trip {y : DSer} {x : Ser K} {m : Mem K} {l : List K} (junk : ℕ → K) (h0 : 0 ≤ x.nonzero) (hk : x.nonzero ≤ x.known)
    (hl : x.nonzero ≤ y.limit) (hb : m y.block = some l) (hlen : (l.length : ℤ) = y.limit) :
    ∃ y' m' z, seriesToDevice y x m = .ok (y', m') ∧ hostCopy y' junk m' = .ok z ∧ z.known = x.known ∧ z.nonzero = x.nonzero ∧
      ∀ i : ℕ, (i : ℤ) < x.nonzero → z.data i = x.data i := by
  obtain ⟨m', e, _, l', hb', hl', hd⟩ := C76_to_device h0 hk hl hb hlen
  obtain ⟨z, ez, z1, z2, _, z4⟩ := C76_host_copy (x := ⟨y.limit, x.known, x.nonzero, y.block⟩) junk h0 hk hb' (by
    show x.nonzero ≤ _; rw [hl']; omega)
  refine ⟨_, m', z, e, ez, z1, z2, fun i hi => ?_⟩
  have := z4 i hi
  rw [hd i, if_pos hi] at this
  exact Option.some.inj this

/-- **C76.** Copies of spans of different sizes are refused, those within a device are what they say. -/
theorem C76_spans (dst src : DSpan) (xs : List K) (m : Mem K) (n : ℕ) :
    (dst.len ≠ xs.length → hostToDevice dst xs m = .error .assertion) ∧ (n ≠ src.len → deviceToHost n src m = .error .assertion) ∧
      (dst.len ≠ src.len → deviceToDevice dst src m = .error .assertion) ∧
      (∀ m', dst.len = src.len → deviceToDevice dst src m = .ok m' → ∃ ys, m.read src = .ok ys ∧ ys.length = src.len ∧
        m'.read dst = .ok ys ∧ ∀ b, b ≠ dst.block → m' b = m b) := by
  refine ⟨fun h => ?_, fun h => ?_, fun h => ?_, fun m' hl h => ?_⟩
  · unfold hostToDevice; rw [slowAssert_false h]; rfl
  · unfold deviceToHost; rw [slowAssert_false h]; rfl
  · unfold deviceToDevice; rw [slowAssert_false h]; rfl
  · unfold deviceToDevice at h
    rw [slowAssert_true hl, bok] at h
    cases hr : m.read src with
    | error e => rw [hr] at h; cases h
    | ok ys =>
      rw [hr, bok] at h
      have hys : ys.length = src.len := by
        unfold Mem.read at hr
        split_ifs at hr with h1
        · cases hr; simp [h1]
        · split at hr
          · cases hr
          · split_ifs at hr with h2
            cases hr
            rw [List.length_take, List.length_drop]; omega
      refine ⟨ys, rfl, hys, ?_⟩
      unfold Mem.write at h
      split_ifs at h with h1
      · cases h
        refine ⟨?_, fun _ _ => rfl⟩
        unfold Mem.read
        rw [if_pos (by omega), List.length_eq_zero_iff.mp h1]
      · split at h
        · cases h
        · rename_i l hb
          split_ifs at h with h2
          cases h
          refine ⟨?_, fun b hne => Function.update_of_ne hne _ _⟩
          unfold Mem.read
          rw [if_neg (by omega), Function.update_self]
          simp only
          have ht : (l.take dst.off).length = dst.off := by rw [List.length_take]; omega
          rw [if_pos (by simp only [List.length_append, ht, List.length_drop]; omega), List.append_assoc, List.drop_append_of_le_length (by omega),
            List.drop_of_length_le (by omega), List.nil_append, List.take_append_of_le_length (by omega), List.take_of_length_le (by omega)]

/-- **C76.** Allocation and release change one block; a block that is not allocated cannot be released.  A single value goes to the first
cell of its span and leaves all others. -/
theorem C76_blocks (m : Mem K) (b : ℕ) (cells l : List K) (dst : DSpan) (a : K) :
    (∃ m', alloc b cells m = .ok m' ∧ m' b = some cells ∧ ∀ c, c ≠ b → m' c = m c) ∧
      (m b = none → release b m = .error .ub) ∧ (m b = some l → ∃ m', release b m = .ok m' ∧ m' b = none ∧ ∀ c, c ≠ b → m' c = m c) ∧
      (m dst.block = some l → dst.off < l.length → ∃ m', singleHostToDevice dst a m = .ok m' ∧ m' dst.block = some (l.set dst.off a) ∧
        ∀ c, c ≠ dst.block → m' c = m c) := by
  refine ⟨⟨_, rfl, Function.update_self _ _ _, fun c hc => Function.update_of_ne hc _ _⟩, fun h => ?_, fun h => ?_, fun h hl => ?_⟩
  · unfold release; rw [h]
  · refine ⟨Function.update m b none, ?_, Function.update_self _ _ _, fun c hc => Function.update_of_ne hc _ _⟩
    unfold release; rw [h]
  · refine ⟨Function.update m dst.block (some (l.set dst.off a)), ?_, Function.update_self _ _ _, fun c hc => Function.update_of_ne hc _ _⟩
    unfold singleHostToDevice Mem.write
    rw [if_neg (by simp), h]
    simp only [List.length_singleton]
    rw [if_pos (by omega), List.set_eq_take_append_cons_drop, if_pos hl, List.append_assoc, List.singleton_append]

/-! ## Cases -/

/-- The program with two kernels and a copy: in every order that the device may choose, the host reads 8. -/
example {n : ℕ} {c : Cfg (ℕ × ℕ) ℕ} (h : Steps true raceProgram n (.running (0, 0) 3 []) c) :
    n ≤ 6 ∧ (c = .running (3, 8) 8 [] ∨ ∃ c', Step true raceProgram c c') := by
  have hsafe : Safe raceProgram ((0, 0), 3) := by
    have h3 : ∀ k, ∀ r, Runs raceProgram k ((0, 0), 3) r → ∃ b, r = .ok b := by
      intro k r hr
      cases hr with
      | zero => exact ⟨_, rfl⟩
      | @succ _ _ b _ _ hn =>
        obtain ⟨⟨i, x⟩, m⟩ := b
        match i with
        | 0 => simp only [next, raceProgram, Option.some.injEq] at hn; exact ⟨_, hn.symm⟩
        | 1 => simp only [next, raceProgram, Option.some.injEq] at hn; exact ⟨_, hn.symm⟩
        | 2 => simp only [next, raceProgram, Option.some.injEq] at hn; exact ⟨_, hn.symm⟩
        | i + 3 => simp [next, raceProgram] at hn
    intro k e hr
    obtain ⟨b, hb⟩ := h3 k _ hr
    cases hb
  exact C76_ends C76_streams_witness.1 hsafe C76_streams_witness.2.1 rfl h

/-- Two stored terms of five known ones, to a block of three cells and back. -/
example : ∃ y' m' z, seriesToDevice ⟨3, 0, 0, 7⟩ (⟨2, 5, 2, fun i => (i : ℤ) + 10⟩ : Ser ℤ) (fun b => if b = 7 then some [1, 2, 3] else none) =
      .ok (y', m') ∧ hostCopy y' (fun _ => 0) m' = .ok z ∧ z.known = 5 ∧ z.data 1 = 11 := by
  obtain ⟨y', m', z, e1, e2, e3, _, e5⟩ := C76_round_trip (y := ⟨3, 0, 0, 7⟩) (x := (⟨2, 5, 2, fun i => (i : ℤ) + 10⟩ : Ser ℤ))
    (m := fun b => if b = 7 then some [1, 2, 3] else none) (l := [1, 2, 3]) (fun _ => 0) (by norm_num) (by norm_num) (by norm_num) rfl rfl
  exact ⟨y', m', z, e1, e2, e3, e5 1 (by norm_num)⟩

/-- One value in the middle of a block of three cells. -/
example : ∃ m', singleHostToDevice ⟨7, 1, 1⟩ (5 : ℤ) (fun b => if b = 7 then some [1, 2, 3] else none) = .ok m' ∧ m' 7 = some [1, 5, 3] := by
  obtain ⟨m', e, h, _⟩ := (C76_blocks (fun b => if b = 7 then some [1, 2, 3] else none) 0 [] [1, 2, 3] ⟨7, 1, 1⟩ (5 : ℤ)).2.2.2 rfl
    (by decide)
  exact ⟨m', e, h⟩

end Mandelbrot.Props
