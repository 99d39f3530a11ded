import Verif.Area.Program
import Verif.Area.Junk
import Verif.IO.Cut

/-!
# Lemmas about stopping and resuming
-/

set_option linter.unusedSectionVars false

namespace Mandelbrot.Area

open _root_.Mandelbrot.IO Ser

variable {K : Type} [Zero K] [One K] [Add K] [Sub K] [Neg K] [Mul K] [Div K] [IntCast K] [Ldexp K]
  [DecidableEq K]

/-- The surroundings see only the counts and the stored terms. -/
structure Env.Local (env : Env K) : Prop where
  accept : ∀ k r f f', SimL f f' → env.accept k r f = env.accept k r f'
  muText : ∀ f f', SimL f f' → env.muText f = env.muText f'

/-- The same call of `write_series`. -/
structure FileReq.Same (a b : FileReq K) : Prop where
  letter : a.letter = b.letter
  k : a.k = b.k
  comments : a.comments = b.comments
  series : Ser.Sim a.series b.series

/-- Files and final series of two runs. -/
def SameRun (a b : List (FileReq K) × Ser K) : Prop := List.Forall₂ FileReq.Same a.1 b.1 ∧ Ser.Sim a.2 b.2

variable {ker ker' : Ker K} {env : Env K}

theorem writeBottcher_sim (henv : env.Local) {f f' g g' : Ser K} (hf : SimL f f') (hg : SimL g g') :
    RelRes (List.Forall₂ FileReq.Same) (writeBottcher env f g) (writeBottcher env f' g') := by
  simp only [writeBottcher, ← hf.known, ← hg.known, ← hf.nonzero, ← hg.nonzero]
  cases knownToK f.known with
  | error e => exact rfl
  | ok k =>
    rw [bok, bok]
    refine RelRes.bind (RelRes.assert Iff.rfl) fun _ _ _ => ?_
    by_cases h0 : f.nonzero = 0 ∨ g.nonzero = 0
    · rw [if_pos h0, if_pos h0]; exact rfl
    · rw [if_neg h0, if_neg h0]
      have h1 := hf.left.wf.nonneg
      have h2 := hg.left.wf.nonneg
      refine RelRes.bind (RelRes.assert (by rw [hf.data 0 (by omega), hg.data 0 (by omega)])) fun _ _ _ => ?_
      have hc : ∀ n, env.comments n k f = env.comments n k f' := fun n => by
        rw [Env.comments, Env.comments, henv.muText f f' hf]
      exact .cons ⟨rfl, rfl, hc _, hg.toSim⟩ (.cons ⟨rfl, rfl, hc _, hf.toSim⟩ .nil)

theorem areasLoop_sim (hker : ker.Sim ker') (henv : env.Local) {J J' : Junk K} {output : Bool} : ∀ {n k : ℕ} {g g' : Ser K},
    Ser.Sim g g' → RelRes SameRun (areasLoop ker J env output n k g) (areasLoop ker' J' env output n k g') := by
  intro n
  induction n with
  | zero => intro k g g' hg; exact ⟨.nil, hg⟩
  | succ n ih =>
    intro k g g' hg
    simp only [areasLoop]
    refine RelRes.bind (bottcherStep_sim hker henv.accept hg) fun s s' hs => ?_
    have hw : RelRes (List.Forall₂ FileReq.Same) (if output then writeBottcher env s.2 s.1 else .ok [])
        (if output then writeBottcher env s'.2 s'.1 else .ok []) := by
      cases output
      · exact List.Forall₂.nil
      · exact writeBottcher_sim henv hs.2 hs.1
    cases output
    · refine RelRes.bind hw fun l l' hl => ?_
      refine RelRes.bind (ih hs.1.toSim) fun r r' hr => ?_
      exact RelRes.pure ⟨List.rel_append hl hr.1, hr.2⟩
    · refine RelRes.bind hw fun l l' hl => ?_
      refine RelRes.bind (ih hs.1.toSim) fun r r' hr => ?_
      exact RelRes.pure ⟨List.rel_append hl hr.1, hr.2⟩

theorem areasLoop_add (J : Junk K) (output : Bool) : ∀ (a b k : ℕ) (g : Ser K),
    areasLoop ker J env output (a + b) k g = areasLoop ker J env output a k g >>= fun r =>
      areasLoop ker J env output b (k + a) r.2 >>= fun r' => pure (r.1 ++ r'.1, r'.2) := by
  intro a
  induction a with
  | zero =>
    intro b k g
    rw [Nat.zero_add, Nat.add_zero, areasLoop, bok]
    cases areasLoop ker J env output b k g <;> rfl
  | succ a ih =>
    intro b k g
    rw [Nat.add_right_comm]
    simp only [areasLoop]
    cases bottcherStep ker (J.sub (k + 1)) env.accept g with
    | error e => rfl
    | ok s =>
      simp only [bok]
      have key : ∀ l : List (FileReq K),
          (do
            let x ← areasLoop ker J env output (a + b) (k + 1) s.1
            pure (l ++ x.1, x.2) : Res (List (FileReq K) × Ser K)) =
          (do
            let r ← (do
              let x ← areasLoop ker J env output a (k + 1) s.1
              pure (l ++ x.1, x.2) : Res (List (FileReq K) × Ser K))
            let r' ← areasLoop ker J env output b (k + (a + 1)) r.2
            pure (r.1 ++ r'.1, r'.2)) := by
        intro l
        rw [ih, show k + (a + 1) = k + 1 + a by omega]
        cases areasLoop ker J env output a (k + 1) s.1 with
        | error e => rfl
        | ok r =>
          simp only [bok, pok]
          cases areasLoop ker J env output b (k + 1 + a) r.2 with
          | error e => rfl
          | ok r' => simp only [bok, List.append_assoc]
      cases output
      · exact key []
      · simp only [if_true]
        cases writeBottcher env s.2 s.1 with
        | error e => rfl
        | ok l => exact key l

/-- What a run of the loop leaves: the number of terms, and the files of the last step. -/
theorem areasLoop_last (hker : ker.KnownBases) {J : Junk K} : ∀ {n k : ℕ} {g : Ser K} {r : List (FileReq K) × Ser K},
    k ≤ 62 → g.known = 2 ^ k → areasLoop ker J env true n k g = .ok r →
    r.2.known = 2 ^ (k + n) ∧ (1 ≤ n → k + n ≤ 30 ∧ ∃ L f, r.1 = L ++
      [⟨'g', k + n, env.comments (kw "g = log(f)") (k + n) f, r.2⟩,
        ⟨'f', k + n, env.comments (kw "f = f(z) = 1/phi(1/z)") (k + n) f, f⟩]) := by
  intro n
  induction n with
  | zero => intro k g r _ hg e; cases e; exact ⟨hg, fun h => by omega⟩
  | succ n ih =>
    intro k g r hk hg e
    simp only [areasLoop, if_true] at e
    obtain ⟨⟨g1, f1⟩, e1, e⟩ := bind_eq_ok e
    obtain ⟨l, e2, e⟩ := bind_eq_ok e
    obtain ⟨⟨rest, g2⟩, e3, e⟩ := bind_eq_ok e
    cases e
    obtain ⟨hk', h1, h2⟩ := bottcherStep_known hker hk hg e1
    simp only at e2 e3 h1 h2
    obtain ⟨i1, i2⟩ := ih (by omega) h1 e3
    simp only at i1 i2 ⊢
    refine ⟨by rw [i1]; congr 1; omega, fun _ => ?_⟩
    rcases Nat.eq_zero_or_pos n with rfl | hn
    · cases e3
      refine ⟨by omega, [], f1, ?_⟩
      simp only [writeBottcher] at e2
      rw [h2, knownToK_pow (by omega), bok] at e2
      obtain ⟨_, _, e2⟩ := bind_eq_ok e2
      split_ifs at e2
      · cases e2
      · obtain ⟨_, _, e2⟩ := bind_eq_ok e2
        cases e2
        simp
    · obtain ⟨hb, L, f, hL⟩ := i2 hn
      refine ⟨by omega, l ++ L, f, ?_⟩
      rw [hL, show k + (n + 1) = k + 1 + n by omega]
      simp

theorem Same.written {a b : FileReq K} (h : a.Same b) {fmt : K → Str} {time : Str} {batch : ℤ} (hb : 1 ≤ batch) {file : Str} :
    WriteSeries fmt a.comments time a.series batch file → WriteSeries fmt b.comments time b.series batch file := by
  intro w
  have hs := h.series
  obtain ⟨n, hn⟩ := Int.eq_ofNat_of_zero_le hs.left.wf.nonneg
  obtain ⟨k, hk⟩ := Int.eq_ofNat_of_zero_le hs.left.wf.known_nonneg'
  have hn' : b.series.nonzero = n := by rw [← hs.nonzero]; exact hn
  have hk' : b.series.known = k := by rw [← hs.known]; exact hk
  have e1 := written_lines hb hk hn w
  obtain ⟨r, hr⟩ := batches_exists fmt b.series.data n hb 0
  have w' : WriteSeries fmt b.comments time b.series batch (headerText b.comments b.series.known b.series.nonzero time ++ r) :=
    ⟨r, by rw [hn']; exact_mod_cast hr, rfl⟩
  have e2 := written_lines hb hk' hn' w'
  have : file = headerText b.comments b.series.known b.series.nonzero time ++ r := by
    rw [e1, e2, h.comments]
    congr 5
    refine List.map_congr_left fun i hi => ?_
    rw [List.mem_range'_1] at hi
    rw [hs.data i (by rw [hn]; exact_mod_cast (by omega : i < n))]
  rw [this]
  exact w'

theorem Sim.symm {x y : Ser K} (h : Ser.Sim x y) : Ser.Sim y x :=
  ⟨h.right, h.left, h.known.symm, h.nonzero.symm, fun i hi => (h.data i (by rw [h.nonzero]; exact hi)).symm⟩

theorem Sim.trans {x y z : Ser K} (h : Ser.Sim x y) (h' : Ser.Sim y z) : Ser.Sim x z :=
  ⟨h.left, h'.right, h.known.trans h'.known, h.nonzero.trans h'.nonzero, fun i hi =>
    (h.data i hi).trans (h'.data i (by rw [← h.nonzero]; exact hi))⟩

end Mandelbrot.Area
