import Verif.Device.FFTLemmas
import Verif.Props.FFT

/-!
# Products on a device (C61)
-/

namespace Mandelbrot.Props

open Device FFT Mandelbrot.Spec Mandelbrot.Props.Spec

/-- All commands, one after the other. -/
def Spec.runAll {D : Type} (cs : List (Cmd D)) (d : D) : D := cs.foldl (fun d c => runCmd c d) d

theorem runAll_append {D : Type} (cs cs' : List (Cmd D)) (d : D) : runAll (cs ++ cs') d = runAll cs' (runAll cs d) := List.foldl_append ..

theorem serial_run (body : List (Access Addr ℂ)) (m : FMem) : runCmd (serial (body.map (Access.step 0))) m = accesses 0 body m := by
  simp [runCmd, serial, accesses, List.foldl_map]

theorem serial_raceFree (body : List (FMem → FMem)) : RaceFree (serial body) := by simp [RaceFree, serial]

theorem forall_snoc {D : Type} {P : Cmd D → Prop} {cs : List (Cmd D)} {c : Cmd D} (h : ∀ c ∈ cs, P c) (hc : P c) : ∀ c' ∈ cs ++ [c], P c' := by
  intro c' h'
  rcases List.mem_append.mp h' with h' | h'
  · exact h c' h'
  · rw [List.mem_singleton.mp h']; exact hc

theorem forall_append {D : Type} {P : Cmd D → Prop} {cs cs' : List (Cmd D)} (h : ∀ c ∈ cs, P c) (h' : ∀ c ∈ cs', P c) :
    ∀ c ∈ cs ++ cs', P c := fun c hc => (List.mem_append.mp hc).elim (h c) (h' c)

section

variable {B G : ℕ} (hpos : 0 < B * G)
include hpos

/-- What a pass does to the buffer at `yo`: nothing else changes below it and in the real cells. -/
def BufTo (yo : ℕ) (m m' : FMem) (y : ℕ → ℂ) : Prop :=
  (∀ k, m'.cell (.inl k) = m.cell (.inl k)) ∧ (∀ k < yo, m'.cell (.inr k) = m.cell (.inr k)) ∧ buf yo m' = y

omit hpos in
theorem BufTo.trans {yo : ℕ} {m m' m'' : FMem} {y y' : ℕ → ℂ} (h : BufTo yo m m' y) (h' : BufTo yo m' m'' y') : BufTo yo m m'' y' :=
  ⟨fun k => (h'.1 k).trans (h.1 k), fun k hk => (h'.2.1 k hk).trans (h.2.1 k hk), h'.2.2⟩

theorem level_cmd {n : ℕ} (h : n + B * G ≤ 2 ^ 31) (r s : ℕ) {f : ℕ → (ℕ → ℂ) → ℕ → ℂ}
    (hf : ∀ j v v', (∀ i < 2 ^ r, v i = v' i) → ∀ i < 2 ^ r, f j v i = f j v' i) (yo : ℕ) :
    ∃ c, gridAccess n B G (levelBody r s f yo) = .ok c ∧ RaceFree c ∧ ∀ m, BufTo yo m (runCmd c m) (levelLoop r n s f (buf yo m)) := by
  obtain ⟨c, h1, -, h2, h3⟩ := C61_kernel h hpos (levelBody_noRaces n r s f yo)
  refine ⟨c, h1, h2, fun m => ?_⟩
  rw [h3]
  exact level_fold r n s f hf yo m

theorem srfftLoop_cmds {n : ℕ} (h : n / 4 + B * G ≤ 2 ^ 31) (yo s : ℕ) :
    ∃ cs, srfftLoopCmds B G n yo s = .ok cs ∧ (∀ c ∈ cs, RaceFree c) ∧ ∀ m, BufTo yo m (runAll cs m) (srfftLoop n s (buf yo m)) := by
  induction s using Nat.strong_induction_on with
  | _ s ih =>
    match s with
    | 0 => exact ⟨[], rfl, by simp, fun m => ⟨fun _ => rfl, fun _ _ => rfl, rfl⟩⟩
    | 1 =>
      obtain ⟨c, h1, h2, h3⟩ := level_cmd hpos h 1 0 (f := fun j1 => butterflyR 1 j1 (slice 0))
        (fun j v v' h i _ => butterflyR_congr (by norm_num) _ _ h i) yo
      refine ⟨[c], by rw [srfftLoopCmds, h1]; rfl, by simpa using h2, h3⟩
    | 2 =>
      obtain ⟨c, h1, h2, h3⟩ := level_cmd hpos (n := n / 8) (by omega) 2 0 (f := fun j1 => butterflyR 2 j1 (slice 1))
        (fun j v v' h i _ => butterflyR_congr (by norm_num) _ _ h i) yo
      refine ⟨[c], by rw [srfftLoopCmds, h1]; rfl, by simpa using h2, h3⟩
    | s + 3 =>
      obtain ⟨c, h1, h2, h3⟩ := level_cmd hpos (n := n / 16) (by omega) 3 s (f := fun j1 => butterflyR 3 j1 (slice (s + 2)))
        (fun j v v' h i _ => butterflyR_congr (by norm_num) _ _ h i) yo
      obtain ⟨cs, i1, i2, i3⟩ := ih s (by omega)
      refine ⟨c :: cs, by rw [srfftLoopCmds, h1, bok, i1]; rfl, ?_, fun m => ?_⟩
      · intro c' hc'
        rcases List.mem_cons.mp hc' with rfl | hc'
        · exact h2
        · exact i2 c' hc'
      · have := (h3 m).trans (i3 (runCmd c m))
        rw [(h3 m).2.2] at this
        exact this

theorem isrfftLoop_cmds {n : ℕ} (h : n / 4 + B * G ≤ 2 ^ 31) (p yo fuel s : ℕ) :
    ∃ cs, isrfftLoopCmds B G n p yo fuel s = .ok cs ∧ (∀ c ∈ cs, RaceFree c) ∧
      ∀ m, BufTo yo m (runAll cs m) (isrfftLoop n p fuel s (buf yo m)) := by
  induction fuel generalizing s with
  | zero => exact ⟨[], rfl, by simp, fun m => ⟨fun _ => rfl, fun _ _ => rfl, rfl⟩⟩
  | succ fuel ih =>
    rw [isrfftLoopCmds]
    simp only [isrfftLoop]
    by_cases hs : s < p - 3
    · simp only [if_pos hs]
      by_cases h1 : s = 0 ∧ p % 3 = 1
      · simp only [if_pos h1]
        obtain ⟨c, h1, h2, h3⟩ := level_cmd hpos h 1 0 (f := fun j1 => transposeC (2 ^ 1) (butterflyR 1 j1 (slice 0)))
          (fun j v v' h i _ => transposeC_congr h i) yo
        obtain ⟨cs, i1, i2, i3⟩ := ih (s + 1)
        refine ⟨c :: cs, by rw [h1, bok, i1]; rfl, ?_, fun m => ?_⟩
        · intro c' hc'
          rcases List.mem_cons.mp hc' with rfl | hc'
          · exact h2
          · exact i2 c' hc'
        · have := (h3 m).trans (i3 (runCmd c m))
          rw [(h3 m).2.2] at this
          exact this
      · simp only [if_neg h1]
        by_cases h2 : s = 0 ∧ p % 3 = 2
        · simp only [if_pos h2]
          obtain ⟨c, h1, h2, h3⟩ := level_cmd hpos (n := n / 8) (by omega) 2 0 (f := fun j1 => transposeC (2 ^ 2) (butterflyR 2 j1 (slice 1)))
            (fun j v v' h i _ => transposeC_congr h i) yo
          obtain ⟨cs, i1, i2, i3⟩ := ih (s + 2)
          refine ⟨c :: cs, by rw [h1, bok, i1]; rfl, ?_, fun m => ?_⟩
          · intro c' hc'
            rcases List.mem_cons.mp hc' with rfl | hc'
            · exact h2
            · exact i2 c' hc'
          · have := (h3 m).trans (i3 (runCmd c m))
            rw [(h3 m).2.2] at this
            exact this
        · simp only [if_neg h2]
          obtain ⟨c, h1, h2, h3⟩ := level_cmd hpos (n := n / 16) (by omega) 3 s
            (f := fun j1 => transposeC (2 ^ 3) (butterflyR 3 j1 (slice (s + 2)))) (fun j v v' h i _ => transposeC_congr h i) yo
          obtain ⟨cs, i1, i2, i3⟩ := ih (s + 3)
          refine ⟨c :: cs, by rw [h1, bok, i1]; rfl, ?_, fun m => ?_⟩
          · intro c' hc'
            rcases List.mem_cons.mp hc' with rfl | hc'
            · exact h2
            · exact i2 c' hc'
          · have := (h3 m).trans (i3 (runCmd c m))
            rw [(h3 m).2.2] at this
            exact this
    · simp only [if_neg hs]
      exact ⟨[], rfl, by simp, fun m => ⟨fun _ => rfl, fun _ _ => rfl, rfl⟩⟩

/-- C61.  `srfft_scramble` on a device. -/
theorem srfft_cmds {lim : ℕ∞} {p : ℕ} (hp : 1 ≤ p) (hlim : p ≤ 2 ∨ (p : ℕ∞) < lim) (h : 2 ^ p / 4 + B * G ≤ 2 ^ 31) (yo xo : ℕ) {nx : ℕ}
    (hx : nx ≤ 2 ^ p) :
    ∃ cs, srfftCmds B G lim (2 ^ (p - 1)) yo xo nx = .ok cs ∧ (∀ c ∈ cs, RaceFree c) ∧
      ∀ m, ∃ y, srfftScramble lim (2 ^ (p - 1)) (buf yo m) (spanAt (reals m) xo nx) = .ok y ∧ BufTo yo m (runAll cs m) y := by
  have hn : 2 * 2 ^ (p - 1) = 2 ^ p := by rw [← pow_succ', Nat.sub_add_cancel hp]
  have hn0 : 2 ^ p ≠ 0 := by positivity
  have hlen : ∀ m, (spanAt (reals m) xo nx).len ≤ 2 ^ p := fun _ => hx
  have hfirst : ∃ c, (∃ r cnt mm tw, (r = 1 ∨ r = 2 ∨ r = 3) ∧ RaceFree c ∧
      (∀ m, runCmd c m = (List.range cnt).foldl (fun m i => accesses i (firstBody r cnt mm tw yo xo nx i) m) m) ∧
      ∀ m, srfftScramble lim (2 ^ (p - 1)) (buf yo m) (spanAt (reals m) xo nx) =
        .ok (srfftLoop (2 ^ p) (p - 3) (srfftFirst r cnt mm tw (buf yo m) (spanAt (reals m) xo nx)))) ∧
      srfftCmds B G lim (2 ^ (p - 1)) yo xo nx = (do
        let cs ← srfftLoopCmds B G (2 ^ p) yo (p - 3)
        return c :: cs) := by
    by_cases h3 : 3 ≤ p
    · obtain ⟨tw, htw, -⟩ := bigSlice_eq (lim := lim) (s := p) (by omega) (hlim.resolve_left (by omega))
      obtain ⟨c, h1, -, h2, h4⟩ := C61_kernel (n := 2 ^ p / 8) (by omega) hpos (firstBody_noRaces 3 (2 ^ p / 8) (1 <<< (p - 3)) tw yo xo nx)
      refine ⟨c, ⟨3, _, _, _, by norm_num, h2, h4, fun m => ?_⟩, ?_⟩
      · simp only [srfftScramble, hn, if_neg hn0, countrZero64_pow]
        rw [slowAssert_true ⟨trivial, hlen m⟩, bok]
        obtain ⟨q, rfl⟩ := Nat.exists_eq_add_of_le' h3
        simp only [htw, bok, pok]
      · simp only [srfftCmds, hn, if_neg hn0, countrZero64_pow]
        rw [slowAssert_true ⟨trivial, hx⟩, bok]
        obtain ⟨q, rfl⟩ := Nat.exists_eq_add_of_le' h3
        simp only [htw, bok]
        rw [h1, bok]
    · obtain rfl | rfl : p = 1 ∨ p = 2 := by omega
      · refine ⟨_, ⟨1, 1, 0, fun j => constantTwiddle j 1, by norm_num, serial_raceFree _, fun m => serial_run _ m, fun m => ?_⟩, ?_⟩
        · simp only [srfftScramble, hn, if_neg hn0, countrZero64_pow]
          rw [slowAssert_true ⟨trivial, hlen m⟩]; rfl
        · simp only [srfftCmds, hn, if_neg hn0, countrZero64_pow]
          rw [slowAssert_true ⟨trivial, hx⟩]; rfl
      · refine ⟨_, ⟨2, 1, 0, fun j => constantTwiddle j 2, by norm_num, serial_raceFree _, fun m => serial_run _ m, fun m => ?_⟩, ?_⟩
        · simp only [srfftScramble, hn, if_neg hn0, countrZero64_pow]
          rw [slowAssert_true ⟨trivial, hlen m⟩]; rfl
        · simp only [srfftCmds, hn, if_neg hn0, countrZero64_pow]
          rw [slowAssert_true ⟨trivial, hx⟩]; rfl
  obtain ⟨c, ⟨r, cnt, mm, tw, hr, c1, c2, c3⟩, c4⟩ := hfirst
  obtain ⟨cs, i1, i2, i3⟩ := srfftLoop_cmds hpos h yo (p - 3)
  refine ⟨c :: cs, by rw [c4, i1]; rfl, ?_, fun m => ⟨_, c3 m, ?_⟩⟩
  · intro c' hc'
    rcases List.mem_cons.mp hc' with rfl | hc'
    · exact c1
    · exact i2 c' hc'
  · have h1 : BufTo yo m (runCmd c m) (srfftFirst r cnt mm tw (buf yo m) (spanAt (reals m) xo nx)) := by
      rw [c2]
      exact first_fold r cnt mm hr tw yo xo nx m
    have := h1.trans (i3 (runCmd c m))
    rw [h1.2.2] at this
    exact this

/-- C61.  `isrfft_scramble` on a device. -/
theorem isrfft_cmds {lim : ℕ∞} {p : ℕ} (hp : 1 ≤ p) (hlim : p ≤ 2 ∨ (p : ℕ∞) < lim) (h : 2 ^ p / 4 + B * G ≤ 2 ^ 31) (add : Bool)
    (yo xo : ℕ) {xn : ℕ} (hx : xn ≤ 2 * 2 ^ p) :
    ∃ cs, isrfftCmds B G lim add xo xn (2 ^ (p - 1)) yo = .ok cs ∧ (∀ c ∈ cs, RaceFree c) ∧
      ∀ m, isrfftScramble lim add xn (fun i => reals m (xo + i)) (2 ^ (p - 1)) (buf yo m) = .ok (fun i => reals (runAll cs m) (xo + i)) ∧
        ∀ k, k < xo ∨ xo + xn ≤ k → (runAll cs m).cell (.inl k) = m.cell (.inl k) := by
  have hn : 2 * 2 ^ (p - 1) = 2 ^ p := by rw [← pow_succ', Nat.sub_add_cancel hp]
  have hn0 : 2 ^ p ≠ 0 := by positivity
  obtain ⟨cs, i1, i2, i3⟩ := isrfftLoop_cmds hpos h p yo p 0
  have hlast : ∃ c, (∃ r cnt mm tw, RaceFree c ∧
      (∀ m, runCmd c m = (List.range cnt).foldl (fun m i => accesses i (lastBody add r cnt mm tw yo xo xn i) m) m) ∧
      ∀ y x, isrfftScramble lim add xn x (2 ^ (p - 1)) y = .ok (isrfftLast add r cnt mm tw (isrfftLoop (2 ^ p) p p 0 y) xn x)) ∧
      isrfftCmds B G lim add xo xn (2 ^ (p - 1)) yo = .ok (cs ++ [c]) := by
    by_cases h3 : 3 ≤ p
    · obtain ⟨tw, htw, -⟩ := bigSlice_eq (lim := lim) (s := p) (by omega) (hlim.resolve_left (by omega))
      obtain ⟨c, h1, -, h2, h4⟩ := C61_kernel (n := 2 ^ p / 8) (by omega) hpos
        (lastBody_noRaces add 3 (2 ^ p / 8) (1 <<< (p - 3)) tw yo xo xn)
      refine ⟨c, ⟨3, _, _, _, h2, h4, fun y x => ?_⟩, ?_⟩
      · simp only [isrfftScramble, hn, if_neg hn0, countrZero64_pow]
        rw [slowAssert_true ⟨trivial, hx⟩, bok]
        obtain ⟨q, rfl⟩ := Nat.exists_eq_add_of_le' h3
        simp only [htw, bok]
      · simp only [isrfftCmds, hn, if_neg hn0, countrZero64_pow]
        rw [slowAssert_true ⟨trivial, hx⟩, bok, i1, bok]
        obtain ⟨q, rfl⟩ := Nat.exists_eq_add_of_le' h3
        simp only [htw, bok]
        rw [h1]; rfl
    · obtain rfl | rfl : p = 1 ∨ p = 2 := by omega
      · refine ⟨_, ⟨1, 1, 0, fun j => constantTwiddle j 1, serial_raceFree _, fun m => serial_run _ m, fun y x => ?_⟩, ?_⟩
        · simp only [isrfftScramble, hn, if_neg hn0, countrZero64_pow]
          rw [slowAssert_true ⟨trivial, hx⟩]; rfl
        · simp only [isrfftCmds, hn, if_neg hn0, countrZero64_pow]
          rw [slowAssert_true ⟨trivial, hx⟩, bok, i1]; rfl
      · refine ⟨_, ⟨2, 1, 0, fun j => constantTwiddle j 2, serial_raceFree _, fun m => serial_run _ m, fun y x => ?_⟩, ?_⟩
        · simp only [isrfftScramble, hn, if_neg hn0, countrZero64_pow]
          rw [slowAssert_true ⟨trivial, hx⟩]; rfl
        · simp only [isrfftCmds, hn, if_neg hn0, countrZero64_pow]
          rw [slowAssert_true ⟨trivial, hx⟩, bok, i1]; rfl
  obtain ⟨c, ⟨r, cnt, mm, tw, c1, c2, c3⟩, c4⟩ := hlast
  refine ⟨_, c4, forall_snoc i2 c1, fun m => ?_⟩
  obtain ⟨b1, -, b3⟩ := i3 m
  have hr : runAll (cs ++ [c]) m = runCmd c (runAll cs m) := by rw [runAll_append]; rfl
  obtain ⟨l1, l2⟩ := last_fold add r cnt mm tw yo xo xn (runAll cs m)
  rw [← c2, ← hr] at l1 l2
  have er : reals (runAll cs m) = reals m := by funext k; simp only [reals, b1]
  refine ⟨?_, fun k hk => (l1 k hk).trans (b1 k)⟩
  rw [c3, l2, b3, er]

/-- Both factors transformed, and their product in the first half of the buffer. -/
theorem product_cmds {lim : ℕ∞} {p : ℕ} (hp : 1 ≤ p) (hlim : p ≤ 2 ∨ (p : ℕ∞) < lim) (h : 2 ^ (p - 1) + B * G ≤ 2 ^ 31) (xo yo : ℕ) {nx ny : ℕ}
    (hx : nx ≤ 2 ^ p) (hy : ny ≤ 2 ^ p) :
    ∃ c1 c2 c3, srfftCmds B G lim (2 ^ (p - 1)) 0 xo nx = .ok c1 ∧ srfftCmds B G lim (2 ^ (p - 1)) (2 ^ (p - 1)) yo ny = .ok c2 ∧
      gridAccess (2 ^ (p - 1)) B G (mulCwiseBody 0 (2 ^ (p - 1)) (1 / ((2 ^ (p - 1) : ℕ) : ℝ))) = .ok c3 ∧
      (∀ c ∈ c1 ++ c2 ++ [c3], RaceFree c) ∧ ∀ m, (∀ k, (runAll (c1 ++ c2 ++ [c3]) m).cell (.inl k) = m.cell (.inl k)) ∧
        ∀ k < 2 ^ p, bwd p (buf 0 (runAll (c1 ++ c2 ++ [c3]) m)) k =
          (spanAt (reals m) xo nx).conv (spanAt (reals m) yo ny) k - (spanAt (reals m) xo nx).conv (spanAt (reals m) yo ny) (k + 2 ^ p) := by
  have hn : 2 ^ p = 2 * 2 ^ (p - 1) := by rw [← pow_succ', Nat.sub_add_cancel hp]
  obtain ⟨c1, e1, r1, f1⟩ := srfft_cmds hpos hp hlim (by omega) 0 xo hx
  obtain ⟨c2, e2, r2, f2⟩ := srfft_cmds hpos hp hlim (by omega) (2 ^ (p - 1)) yo hy
  obtain ⟨c3, e3, -, r3, f3⟩ := C61_kernel h hpos (mulCwiseBody_noRaces (2 ^ (p - 1)) (1 / ((2 ^ (p - 1) : ℕ) : ℝ)))
  refine ⟨c1, c2, c3, e1, e2, e3, forall_snoc (forall_append r1 r2) r3, fun m => ?_⟩
  have er : runAll (c1 ++ c2 ++ [c3]) m = runCmd c3 (runAll c2 (runAll c1 m)) := by rw [runAll_append, runAll_append]; rfl
  obtain ⟨y1, s1, a1, -, a3⟩ := f1 m
  obtain ⟨y2, s2, b1, b2, b3⟩ := f2 (runAll c1 m)
  obtain ⟨d1, d2⟩ := mulCwise_fold (2 ^ (p - 1)) (1 / ((2 ^ (p - 1) : ℕ) : ℝ)) (runAll c2 (runAll c1 m))
  rw [← f3, ← er] at d1 d2
  have hreals : reals (runAll c1 m) = reals m := by funext k; simp only [reals, a1]
  rw [hreals] at s2
  obtain ⟨y1', t1, g1⟩ := srfftScramble_eq (lim := lim) hp hlim (buf 0 m) (x := spanAt (reals m) xo nx) hx
  obtain ⟨y2', t2, g2⟩ := srfftScramble_eq (lim := lim) hp hlim (buf (2 ^ (p - 1)) (runAll c1 m)) (x := spanAt (reals m) yo ny) hy
  obtain rfl : y1' = y1 := Except.ok.inj (t1.symm.trans s1)
  obtain rfl : y2' = y2 := Except.ok.inj (t2.symm.trans s2)
  refine ⟨fun k => (d1 k).trans ((b1 k).trans (a1 k)), fun k hk => ?_⟩
  rw [bwd_product hp (a := (spanAt (reals m) xo nx).getZ) (b := (spanAt (reals m) yo ny).getZ) (fun i hi => getZ_of_le _ (le_trans hx hi))
    (fun i hi => getZ_of_le _ (le_trans hy hi)) ?_ hk]
  · rfl
  · intro k hk
    rw [d2, mulCwise_at, if_pos hk, b3, g2 k hk, ← g1 k hk, ← a3]
    simp only [buf, Nat.zero_add, b2 k hk]

end

/-- What remains to be read off: all executions of a program that launches commands. -/
theorem launchAll_spec {D : Type} (cs : List (Cmd D)) (h : ∀ c ∈ cs, RaceFree c) :
    AllRaceFree (launchAll cs) ∧ ∀ d, inOrder (launchAll cs) d = (runAll cs d, ()) := by
  induction cs with
  | nil => exact ⟨trivial, fun _ => rfl⟩
  | cons c cs ih =>
    obtain ⟨i1, i2⟩ := ih fun c hc => h c (List.mem_cons_of_mem _ hc)
    exact ⟨⟨h c List.mem_cons_self, i1⟩, fun d => i2 (runCmd c d)⟩

/-- Every execution of the commands ends, with a memory of which `P` holds. -/
def Spec.Achieves {D : Type} (cs : List (Cmd D)) (d : D) (P : D → Prop) : Prop :=
  (∃ s, Steps true ⟨[], d, launchAll cs⟩ s ∧ ∀ s', ¬Step true s s') ∧
  ∀ s, Steps true ⟨[], d, launchAll cs⟩ s → (∀ s', ¬Step true s s') → s.pending = [] ∧ s.host = .done () ∧ P s.mem

theorem achieves_of {D : Type} {cs : List (Cmd D)} (h : ∀ c ∈ cs, RaceFree c) (d : D) {P : D → Prop} (hP : P (runAll cs d)) :
    Spec.Achieves cs d P := by
  obtain ⟨h1, h2⟩ := launchAll_spec cs h
  refine ⟨⟨_, C61_reaches h1 d, fun s' => end_stuck s'⟩, fun s hs hend => ?_⟩
  rw [C61_program_order h1 hs hend, h2]
  exact ⟨rfl, rfl, hP⟩

theorem bits_bound {nz p : ℕ} (h : 2 ^ p < 4 * nz) (hp : 1 ≤ p) (hl : nz ≤ 2 ^ 28) : 2 ^ (p - 1) < 2 ^ 29 := by
  have hn : 2 ^ p = 2 * 2 ^ (p - 1) := by rw [← pow_succ', Nat.sub_add_cancel hp]
  omega

/-- C61.  `fft_mul` on a device, for a grid of any shape of at most 2^30 threads: no two threads get in each other's way, and however the
threads are interleaved and the commands delayed, the cells of `z` end with the product of what `x` and `y` held before, and no other real
cell changes.  The spans may overlap in any way. -/
theorem C61_fft_mul {B G : ℕ} (hpos : 0 < B * G) (hBG : B * G ≤ 2 ^ 30) (zo xo yo : ℕ) {nz nx ny : ℕ} (h : nz ≤ nx + ny - 1) (hx : nx ≤ nz)
    (hy : ny ≤ nz) (hl : nz ≤ 2 ^ 28) :
    ∃ cs, fftMulCmds B G FFT.sLimit zo nz xo nx yo ny = .ok cs ∧ ∀ m, Spec.Achieves cs m fun m' =>
      (∀ k < nz, (m'.cell (.inl (zo + k))).re = Spec.conv (fun i => if i < nx then (m.cell (.inl (xo + i))).re else 0)
        (fun i => if i < ny then (m.cell (.inl (yo + i))).re else 0) k) ∧
      ∀ a, (a < zo ∨ zo + nz ≤ a) → (m'.cell (.inl a)).re = (m.cell (.inl a)).re := by
  have hrel : (nz : ℤ) ≤ relu ((nx : ℤ) + ny - 1) := by unfold relu; omega
  by_cases h8 : nz ≤ mulBaseN
  · refine ⟨_, by rw [fftMulCmds, slowAssert_true hrel, bok, if_pos h8]; rfl, fun m => achieves_of (by simpa using serial_raceFree _) m ?_⟩
    have e : ∀ a, ((runAll [serial ((mulBaseBody zo nz xo nx yo ny).map (Access.step 0))] m).cell (.inl a)).re =
        storeAt (reals m) zo nz (mulBase nz (fun i => reals m (zo + i)) (spanAt (reals m) xo nx) (spanAt (reals m) yo ny)) a := by
      intro a
      have := congrFun (mulBaseBody_run zo nz xo nx yo ny m) a
      rw [mulBaseMem_eq _ _ h8, ← serial_run] at this
      exact this
    refine ⟨fun k hk => ?_, fun a ha => ?_⟩
    · rw [e, storeAt, if_pos (by omega), Nat.add_sub_cancel_left, mulBase_eq nz h8, if_pos hk]; rfl
    · rw [e, storeAt, if_neg (by omega)]; rfl
  · have h8' : ¬nz ≤ 8 := h8
    obtain ⟨p, hp, ep, ep2, hle, hlt⟩ := bitCeil_two_mul (show 0 < nz by omega)
    have hlim : (p : ℕ∞) < FFT.sLimit := by
      have := clog_lt hl
      rwa [show Nat.clog 2 (2 * nz) = p from Nat.pow_right_injective (le_refl 2) ep] at this
    have hb := bits_bound hlt hp hl
    have hn : 2 ^ p = 2 * 2 ^ (p - 1) := by rw [← pow_succ', Nat.sub_add_cancel hp]
    obtain ⟨c1, c2, c3, e1, e2, e3, r, f⟩ := product_cmds hpos (lim := FFT.sLimit) hp (.inr hlim) (by omega) xo yo (nx := nx) (ny := ny)
      (by omega) (by omega)
    obtain ⟨c4, e4, r4, f4⟩ := isrfft_cmds hpos (lim := FFT.sLimit) hp (.inr hlim) (by omega) false 0 zo (xn := nz) (by omega)
    refine ⟨c1 ++ c2 ++ [c3] ++ c4, ?_, fun m => achieves_of (forall_append r r4) m ?_⟩
    · simp only [fftMulCmds]
      rw [slowAssert_true hrel, bok, if_neg h8, ep2, e1, bok, e2, bok, e3, bok, e4]; rfl
    · obtain ⟨a1, a2⟩ := f m
      rw [runAll_append]
      generalize runAll (c1 ++ c2 ++ [c3]) m = m1 at *
      obtain ⟨b1, b2⟩ := f4 m1
      obtain ⟨x', g1, g2⟩ := isrfftScramble_eq hp (.inr hlim) false (xn := nz) (by omega) (fun i => reals m1 (zo + i)) (buf 0 m1)
      have hx' := Except.ok.inj (g1.symm.trans b1)
      refine ⟨fun k hk => ?_, fun a ha => ?_⟩
      · have e := congrFun hx' k
        rw [g2, if_pos ⟨by omega, hk⟩, a2 k (by omega), conv_of_le _ _ (i := k + 2 ^ p) (by simp only [spanAt]; omega)] at e
        rw [show ((runAll c4 m1).cell (.inl (zo + k))).re = reals (runAll c4 m1) (zo + k) from rfl, ← e]
        simp only [Bool.false_eq_true, if_false, zero_add, sub_zero]
        rfl
      · rw [b2 a ha, a1]

/-- C61.  `fft_sqr` on a device. -/
theorem C61_fft_sqr {B G : ℕ} (hpos : 0 < B * G) (hBG : B * G ≤ 2 ^ 30) (yo xo : ℕ) {ny nx : ℕ} (h : ny ≤ 2 * nx - 1) (hx : nx ≤ ny)
    (hl : ny ≤ 2 ^ 28) :
    ∃ cs, fftSqrCmds B G FFT.sLimit yo ny xo nx = .ok cs ∧ ∀ m, Spec.Achieves cs m fun m' =>
      (∀ k < ny, (m'.cell (.inl (yo + k))).re = Spec.conv (fun i => if i < nx then (m.cell (.inl (xo + i))).re else 0)
        (fun i => if i < nx then (m.cell (.inl (xo + i))).re else 0) k) ∧
      ∀ a, (a < yo ∨ yo + ny ≤ a) → (m'.cell (.inl a)).re = (m.cell (.inl a)).re := by
  have hrel : (ny : ℤ) ≤ relu (2 * (nx : ℤ) - 1) := by unfold relu; omega
  by_cases h8 : ny ≤ mulBaseN
  · refine ⟨_, by rw [fftSqrCmds, slowAssert_true hrel, bok, if_pos h8]; rfl, fun m => achieves_of (by simpa using serial_raceFree _) m ?_⟩
    have e : ∀ a, ((runAll [serial ((sqrBaseBody yo ny xo nx).map (Access.step 0))] m).cell (.inl a)).re =
        storeAt (reals m) yo ny (sqrBase ny (fun i => reals m (yo + i)) (spanAt (reals m) xo nx)) a := by
      intro a
      have := congrFun (sqrBaseBody_run yo ny xo nx m) a
      rw [sqrBaseMem_eq _ _ h8, ← serial_run] at this
      exact this
    refine ⟨fun k hk => ?_, fun a ha => ?_⟩
    · rw [e, storeAt, if_pos (by omega), Nat.add_sub_cancel_left, sqrBase_eq ny h8, if_pos hk]; rfl
    · rw [e, storeAt, if_neg (by omega)]; rfl
  · have h8' : ¬ny ≤ 8 := h8
    obtain ⟨p, hp, ep, ep2, hle, hlt⟩ := bitCeil_two_mul (show 0 < ny by omega)
    have hlim : (p : ℕ∞) < FFT.sLimit := by
      have := clog_lt hl
      rwa [show Nat.clog 2 (2 * ny) = p from Nat.pow_right_injective (le_refl 2) ep] at this
    have hb := bits_bound hlt hp hl
    have hn : 2 ^ p = 2 * 2 ^ (p - 1) := by rw [← pow_succ', Nat.sub_add_cancel hp]
    have hx2 : nx ≤ 2 ^ p := by omega
    obtain ⟨c1, e1, r1, f1⟩ := srfft_cmds hpos (lim := FFT.sLimit) hp (.inr hlim) (by omega) 0 xo hx2
    obtain ⟨c2, e2, -, r2, f2⟩ := C61_kernel (n := 2 ^ (p - 1)) (by omega) hpos (sqrCwiseBody_noRaces (2 ^ (p - 1)) (1 / ((2 ^ (p - 1) : ℕ) : ℝ)))
    obtain ⟨c3, e3, r3, f3⟩ := isrfft_cmds hpos (lim := FFT.sLimit) hp (.inr hlim) (by omega) false 0 yo (xn := ny) (by omega)
    refine ⟨c1 ++ [c2] ++ c3, ?_, fun m => achieves_of (forall_append (forall_snoc r1 r2) r3) m ?_⟩
    · simp only [fftSqrCmds]
      rw [slowAssert_true hrel, bok, if_neg h8, ep2, e1, bok, e2, bok, e3]; rfl
    · obtain ⟨y1, s1, a1, -, a3⟩ := f1 m
      obtain ⟨y1', t1, g1⟩ := srfftScramble_eq (lim := FFT.sLimit) hp (.inr hlim) (buf 0 m) (x := spanAt (reals m) xo nx) hx2
      obtain rfl : y1' = y1 := Except.ok.inj (t1.symm.trans s1)
      obtain ⟨d1, d2⟩ := sqrCwise_fold (2 ^ (p - 1)) (1 / ((2 ^ (p - 1) : ℕ) : ℝ)) (runAll c1 m)
      have er : runAll (c1 ++ [c2] ++ c3) m = runAll c3 (runCmd c2 (runAll c1 m)) := by rw [runAll_append, runAll_append]; rfl
      rw [er]
      rw [← f2] at d1 d2
      generalize runCmd c2 (runAll c1 m) = m1 at *
      obtain ⟨b1, b2⟩ := f3 m1
      obtain ⟨x', w1, w2⟩ := isrfftScramble_eq hp (.inr hlim) false (xn := ny) (by omega) (fun i => reals m1 (yo + i)) (buf 0 m1)
      have hx' := Except.ok.inj (w1.symm.trans b1)
      refine ⟨fun k hk => ?_, fun a ha => ?_⟩
      · have e := congrFun hx' k
        rw [w2, if_pos ⟨by omega, hk⟩, bwd_product hp (a := (spanAt (reals m) xo nx).getZ) (b := (spanAt (reals m) xo nx).getZ)
          (fun i hi => getZ_of_le _ (le_trans hx2 hi)) (fun i hi => getZ_of_le _ (le_trans hx2 hi)) ?_ (by omega)] at e
        · have hc : nega (2 ^ p) (spanAt (reals m) xo nx).getZ (spanAt (reals m) xo nx).getZ k =
              (spanAt (reals m) xo nx).conv (spanAt (reals m) xo nx) k -
                (spanAt (reals m) xo nx).conv (spanAt (reals m) xo nx) (k + 2 ^ p) := rfl
          rw [hc, conv_of_le _ _ (i := k + 2 ^ p) (by simp only [spanAt]; omega)] at e
          rw [show ((runAll c3 m1).cell (.inl (yo + k))).re = reals (runAll c3 m1) (yo + k) from rfl, ← e]
          simp only [Bool.false_eq_true, if_false, zero_add, sub_zero]
          rfl
        · intro k hk
          rw [d2, sqrCwise_at, if_pos hk, a3, g1 k hk]
      · rw [b2 a ha, d1, a1]

/-- C61.  `fft_addmul` on a device: the product of what `x` and `y` held before the call is added to what `z` holds after `middle`, which may
store any real cell, those of `x` and `y` too, but not the buffer. -/
theorem C61_fft_addmul {B G : ℕ} (hpos : 0 < B * G) (hBG : B * G ≤ 2 ^ 30) (zo xo yo : ℕ) {nz nx ny : ℕ} (h : nz ≤ nx + ny - 1) (hx : nx ≤ nz)
    (hy : ny ≤ nz) (h0 : 0 < nz) (hl : nz ≤ 2 ^ 28) {middle : List (Cmd FMem)} (hr : ∀ c ∈ middle, RaceFree c)
    (hm : ∀ m k, (runAll middle m).cell (.inr k) = m.cell (.inr k)) (hreal : ∀ m m' : FMem, (∀ a, m.cell (.inl a) = m'.cell (.inl a)) →
      ∀ a, (runAll middle m).cell (.inl a) = (runAll middle m').cell (.inl a)) :
    ∃ cs, fftAddmulCmds B G FFT.sLimit zo nz xo nx yo ny middle = .ok cs ∧ ∀ m, Spec.Achieves cs m fun m' =>
      (∀ k < nz, (m'.cell (.inl (zo + k))).re = ((runAll middle m).cell (.inl (zo + k))).re +
        Spec.conv (fun i => if i < nx then (m.cell (.inl (xo + i))).re else 0)
          (fun i => if i < ny then (m.cell (.inl (yo + i))).re else 0) k) ∧
      ∀ a, (a < zo ∨ zo + nz ≤ a) → (m'.cell (.inl a)).re = ((runAll middle m).cell (.inl a)).re := by
  have hrel : (nz : ℤ) ≤ relu ((nx : ℤ) + ny - 1) := by unfold relu; omega
  obtain ⟨p, hp, ep, ep2, hle, hlt⟩ := bitCeil_two_mul h0
  have hlim : (p : ℕ∞) < FFT.sLimit := by
    have := clog_lt hl
    rwa [show Nat.clog 2 (2 * nz) = p from Nat.pow_right_injective (le_refl 2) ep] at this
  have hb := bits_bound hlt hp hl
  have hn : 2 ^ p = 2 * 2 ^ (p - 1) := by rw [← pow_succ', Nat.sub_add_cancel hp]
  obtain ⟨c1, c2, c3, e1, e2, e3, r, f⟩ := product_cmds hpos (lim := FFT.sLimit) hp (.inr hlim) (by omega) xo yo (nx := nx) (ny := ny)
    (by omega) (by omega)
  obtain ⟨c4, e4, r4, f4⟩ := isrfft_cmds hpos (lim := FFT.sLimit) hp (.inr hlim) (by omega) true 0 zo (xn := nz) (by omega)
  refine ⟨c1 ++ c2 ++ [c3] ++ middle ++ c4, ?_, fun m => achieves_of (forall_append (forall_append r hr) r4) m ?_⟩
  · simp only [fftAddmulCmds]
    rw [slowAssert_true hrel, bok, ep2, e1, bok, e2, bok, e3, bok, e4]; rfl
  · obtain ⟨a1, a2⟩ := f m
    rw [runAll_append, runAll_append]
    generalize runAll (c1 ++ c2 ++ [c3]) m = m1 at *
    have hmid := hreal m1 m a1
    have hbuf : buf 0 (runAll middle m1) = buf 0 m1 := by funext k; simp only [buf, hm]
    generalize runAll middle m1 = m2 at *
    obtain ⟨b1, b2⟩ := f4 m2
    obtain ⟨x', g1, g2⟩ := isrfftScramble_eq hp (.inr hlim) true (xn := nz) (by omega) (fun i => reals m2 (zo + i)) (buf 0 m2)
    have hx' := Except.ok.inj (g1.symm.trans b1)
    refine ⟨fun k hk => ?_, fun a ha => ?_⟩
    · have e := congrFun hx' k
      rw [g2, if_pos ⟨by omega, hk⟩, hbuf, a2 k (by omega), conv_of_le _ _ (i := k + 2 ^ p) (by simp only [spanAt]; omega)] at e
      rw [show ((runAll c4 m2).cell (.inl (zo + k))).re = reals (runAll c4 m2) (zo + k) from rfl, ← e]
      simp only [if_true, sub_zero, reals, hmid]
      rfl
    · rw [b2 a ha, hmid]

/-- C61.  Nothing is launched when the result is longer than the product. -/
theorem C61_fft_throws (B G : ℕ) (lim : ℕ∞) (zo xo yo : ℕ) (nz nx ny : ℕ) (middle : List (Cmd FMem)) (h : nx + ny - 1 < nz) :
    fftMulCmds B G lim zo nz xo nx yo ny = .error .assertion ∧ fftAddmulCmds B G lim zo nz xo nx yo ny middle = .error .assertion ∧
      (ny = nx → fftSqrCmds B G lim zo nz xo nx = .error .assertion) := by
  refine ⟨?_, ?_, fun e => ?_⟩
  · rw [fftMulCmds, slowAssert_false (by unfold relu; omega)]; rfl
  · rw [fftAddmulCmds, slowAssert_false (by unfold relu; omega)]; rfl
  · subst e
    rw [fftSqrCmds, slowAssert_false (by unfold relu; omega)]; rfl

/-! ## Instances -/

/-- A grid of 4 blocks of 32 threads: the product of 10 numbers at 0 and 10 numbers at 3, stored at 5. -/
example : ∃ cs, fftMulCmds 32 4 FFT.sLimit 5 10 0 10 3 10 = .ok cs ∧ ∀ m, Spec.Achieves cs m fun m' =>
    (m'.cell (.inl 5)).re = (m.cell (.inl 0)).re * (m.cell (.inl 3)).re ∧ (m'.cell (.inl 15)).re = (m.cell (.inl 15)).re := by
  obtain ⟨cs, h1, h2⟩ := C61_fft_mul (B := 32) (G := 4) (by norm_num) (by norm_num) 5 0 3 (nz := 10) (nx := 10) (ny := 10) (by norm_num)
    (by norm_num) (by norm_num) (by norm_num)
  refine ⟨cs, h1, fun m => ⟨(h2 m).1, fun s hs hend => ?_⟩⟩
  obtain ⟨a1, a2, a3, a4⟩ := (h2 m).2 s hs hend
  refine ⟨a1, a2, ?_, a4 15 (by norm_num)⟩
  have := a3 0 (by norm_num)
  simpa [Spec.conv] using this

example : ∃ cs, fftSqrCmds 256 8 FFT.sLimit 0 199 0 100 = .ok cs ∧ ∀ m, Spec.Achieves cs m fun m' =>
    (m'.cell (.inl 0)).re = (m.cell (.inl 0)).re * (m.cell (.inl 0)).re := by
  obtain ⟨cs, h1, h2⟩ := C61_fft_sqr (B := 256) (G := 8) (by norm_num) (by norm_num) 0 0 (ny := 199) (nx := 100) (by norm_num)
    (by norm_num) (by norm_num)
  refine ⟨cs, h1, fun m => ⟨(h2 m).1, fun s hs hend => ?_⟩⟩
  obtain ⟨a1, a2, a3, a4⟩ := (h2 m).2 s hs hend
  refine ⟨a1, a2, ?_⟩
  have := a3 0 (by norm_num)
  simpa [Spec.conv] using this

/-- With a middle that overwrites `z`. -/
example : ∃ cs, fftAddmulCmds 1 1 FFT.sLimit 0 1 0 1 0 1 [serial [Access.step 0 (.store (.inl 0) fun _ => 7)]] = .ok cs ∧
    ∀ m, Spec.Achieves cs m fun m' => (m'.cell (.inl 0)).re = 7 + (m.cell (.inl 0)).re * (m.cell (.inl 0)).re := by
  have hrun : ∀ m : FMem, runAll [serial [Access.step 0 (.store (.inl 0) fun _ => 7)]] m =
      ⟨Function.update m.cell (.inl 0) 7, m.regs⟩ := fun _ => rfl
  obtain ⟨cs, h1, h2⟩ := C61_fft_addmul (B := 1) (G := 1) (by norm_num) (by norm_num) 0 0 0 (nz := 1) (nx := 1) (ny := 1) (by norm_num)
    (by norm_num) (by norm_num) (by norm_num) (by norm_num) (middle := [serial [Access.step 0 (.store (.inl 0) fun _ => 7)]])
    (by simpa using serial_raceFree _) (fun m k => by rw [hrun]; simp)
    (fun m m' hm a => by
      rw [hrun, hrun]
      by_cases ha : a = 0
      · subst ha; simp
      · simp [ha, hm])
  refine ⟨cs, h1, fun m => ⟨(h2 m).1, fun s hs hend => ?_⟩⟩
  obtain ⟨a1, a2, a3, a4⟩ := (h2 m).2 s hs hend
  refine ⟨a1, a2, ?_⟩
  have := a3 0 (by norm_num)
  rw [hrun] at this
  simpa [Spec.conv] using this

end Mandelbrot.Props
