import Verif.Test.Tmp
import Mathlib.Tactic.Common

/-!
# C79: temporary files and directories are gone after their scope
-/

namespace Mandelbrot.Props
open Verif.Tmp

namespace Temp

/-- What is at the path or in the directory there. -/
def Below (p q : Str) : Prop := q = p ∨ (p ++ ['/']) <+: q

/-- The promise of `mkstemp` and `mkdtemp`: a path where nothing was; what would lie in a directory that does not exist does not exist. -/
structure Promise (os : Os) : Prop where
  file : ∀ s t p, os.file s t = some p → p ≠ [] ∧ s.files p = none
  dir : ∀ s t p, os.dir s t = some p → p ≠ [] ∧ ∀ q, Below p q → s.files q = none

/-- The other code of the test changes only the paths in `live` and those of the temporary objects around it. -/
def Confined : Set Str → Prog → Prop
  | live, .act f => ∀ s q, q ∉ live → (f s).1.files q = s.files q
  | live, .seq a b => Confined live a ∧ Confined live b
  | live, .file _ body => ∀ p, Confined (live ∪ {p}) (body p)
  | live, .dir _ body => ∀ p, Confined (live ∪ {q | Below p q}) (body p)

/-- The other code closes the descriptors that it opens. -/
def Closing : Prog → Prop
  | .act f => ∀ s, (f s).1.fds = s.fds
  | .seq a b => Closing a ∧ Closing b
  | .file _ body => ∀ p, Closing (body p)
  | .dir _ body => ∀ p, Closing (body p)

/-- No temporary files are made, only directories. -/
def NoFile : Prog → Prop
  | .act _ => True
  | .seq a b => NoFile a ∧ NoFile b
  | .file _ _ => False
  | .dir _ body => ∀ p, NoFile (body p)

/-- Code that does nothing. -/
def idle : Prog := .act fun s => (s, true)

/-- `n` temporary files, one after the other. -/
def files (pre : Str) : ℕ → Prog
  | 0 => idle
  | n + 1 => .seq (.file pre fun _ => idle) (files pre n)

end Temp
open Temp

theorem tmp_within (p q : Str) : within p q = true ↔ Below p q := by
  unfold within Below
  rw [Bool.or_eq_true, beq_iff_eq, List.isPrefixOf_iff_prefix]

theorem tmp_nonempty {p : Str} (h : p ≠ []) : p.length ≠ 0 := fun e => h (List.length_eq_zero_iff.mp e)

/-- **C79.** A temporary file is new, empty and beside all others. -/
theorem C79_file {os : Os} (P : Promise os) {pre : Str} {s s' : Fs} {p : Str} (h : makeFile os pre s = some (p, s')) :
    os.file s ("/tmp/".toList ++ pre ++ "XXXXXX".toList) = some p ∧ s.files p = none ∧ s'.files p = some [] ∧ (∀ q, q ≠ p → s'.files q = s.files q) ∧ s'.fds = s.fds + 1 ∧
      s.fds < os.limit := by
  unfold makeFile at h
  split at h
  · rename_i hl
    obtain ⟨r, h1, h2⟩ := Option.map_eq_some_iff.mp h
    obtain ⟨rfl, rfl⟩ := Prod.mk.inj h2
    exact ⟨h1, (P.file _ _ _ h1).2, if_pos rfl, fun q hq => if_neg hq, rfl, hl⟩
  · cases h

/-- **C79.** A temporary directory is new and empty; no descriptor stays open. -/
theorem C79_dir {os : Os} (P : Promise os) {pre : Str} {s s' : Fs} {p : Str} (h : makeDir os pre s = some (p, s')) :
    os.dir s ("/tmp/".toList ++ pre ++ "XXXXXX".toList) = some p ∧ (∀ q, Below p q → s.files q = none) ∧ s'.files p = some [] ∧ (∀ q, q ≠ p → s'.files q = s.files q) ∧
      s'.fds = s.fds := by
  unfold makeDir at h
  obtain ⟨r, h1, h2⟩ := Option.map_eq_some_iff.mp h
  obtain ⟨rfl, rfl⟩ := Prod.mk.inj h2
  exact ⟨h1, (P.dir _ _ _ h1).2, if_pos rfl, fun q hq => if_neg hq, rfl⟩

/-- **C79.** However scopes are nested and whether or not an exception ends them, nothing remains of temporary files and directories, and
files that the test does not touch itself are as before. -/
theorem C79_clean {os : Os} (P : Promise os) (t : Prog) {live : Set Str} (h : Confined live t) (s : Fs) {q : Str} (hq : q ∉ live) :
    (exec os t s).1.files q = s.files q := by
  induction t generalizing live s with
  | act f => exact h s q hq
  | seq a b iha ihb =>
    rw [exec]
    split
    · rw [ihb h.2 _ hq, iha h.1 _ hq]
    · exact iha h.1 _ hq
  | file pre body ih =>
    rw [exec]
    split
    · rfl
    · rename_i p s1 hm
      obtain ⟨h0, h1, _, h3, _⟩ := C79_file P hm
      show (dropFile p _).files q = _
      rw [dropFile, if_pos (tmp_nonempty (P.file _ _ _ h0).1)]
      show (if q = p then none else _) = _
      split
      · rename_i e; rw [e, h1]
      · rename_i e
        rw [ih p (h p) _ (by rintro (h' | h'); exacts [hq h', e h']), h3 q e]
  | dir pre body ih =>
    rw [exec]
    split
    · rfl
    · rename_i p s1 hm
      obtain ⟨h0, h1, _, h3, _⟩ := C79_dir P hm
      show (dropDir p _).files q = _
      rw [dropDir, if_pos (tmp_nonempty (P.dir _ _ _ h0).1)]
      show (if within p q = true then none else _) = _
      split
      · rename_i e; rw [h1 q ((tmp_within p q).mp e)]
      · rename_i e
        have e' : ¬ Below p q := fun e' => e ((tmp_within p q).mpr e')
        rw [ih p (h p) _ (by rintro (h' | h'); exacts [hq h', e' h']), h3 q fun e2 => e' (Or.inl e2)]

/-- **C79.** An exception passes through the scopes and skips what follows; a temporary object that cannot be made is one, and changes nothing. -/
theorem C79_exception (os : Os) (pre : Str) (body : Str → Prog) (a b : Prog) (s : Fs) :
    (∀ p s1, makeFile os pre s = some (p, s1) → (exec os (.file pre body) s).2 = (exec os (body p) s1).2) ∧
      (∀ p s1, makeDir os pre s = some (p, s1) → (exec os (.dir pre body) s).2 = (exec os (body p) s1).2) ∧
      (makeFile os pre s = none → exec os (.file pre body) s = (s, false)) ∧ (makeDir os pre s = none → exec os (.dir pre body) s = (s, false)) ∧
      ((exec os a s).2 = false → exec os (.seq a b) s = exec os a s) ∧
      ((exec os a s).2 = true → exec os (.seq a b) s = exec os b (exec os a s).1) := by
  refine ⟨fun p s1 h => ?_, fun p s1 h => ?_, fun h => ?_, fun h => ?_, fun h => ?_, fun h => ?_⟩
  · rw [exec, h]
  · rw [exec, h]
  · rw [exec, h]
  · rw [exec, h]
  · rw [exec, if_neg (by simp [h])]
  · rw [exec, if_pos h]

/-- **C79.** Directories leave no descriptor open, files may. -/
theorem C79_descriptors {os : Os} (P : Promise os) (t : Prog) (h : Closing t) (s : Fs) :
    s.fds ≤ (exec os t s).1.fds ∧ (NoFile t → (exec os t s).1.fds = s.fds) := by
  induction t generalizing s with
  | act f => exact ⟨(h s).ge, fun _ => h s⟩
  | seq a b iha ihb =>
    rw [exec]
    obtain ⟨a1, a2⟩ := iha h.1 s
    split
    · obtain ⟨b1, b2⟩ := ihb h.2 (exec os a s).1
      exact ⟨a1.trans b1, fun hn => (b2 hn.2).trans (a2 hn.1)⟩
    · exact ⟨a1, fun hn => a2 hn.1⟩
  | file pre body ih =>
    rw [exec]
    refine ⟨?_, fun hn => hn.elim⟩
    split
    · exact le_refl _
    · rename_i p s1 hm
      have h5 := (C79_file P hm).2.2.2.2.1
      have h6 := (ih p (h p) s1).1
      have h7 : (dropFile p (exec os (body p) s1).1).fds = (exec os (body p) s1).1.fds := by
        unfold dropFile; split <;> rfl
      show s.fds ≤ (dropFile p (exec os (body p) s1).1).fds
      omega
  | dir pre body ih =>
    rw [exec]
    split
    · exact ⟨le_refl _, fun _ => rfl⟩
    · rename_i p s1 hm
      have h5 := (C79_dir P hm).2.2.2.2
      obtain ⟨h6, h8⟩ := ih p (h p) s1
      have h7 : (dropDir p (exec os (body p) s1).1).fds = (exec os (body p) s1).1.fds := by
        unfold dropDir; split <;> rfl
      show s.fds ≤ (dropDir p (exec os (body p) s1).1).fds ∧ (_ → (dropDir p (exec os (body p) s1).1).fds = s.fds)
      rw [h7, ← h5]
      exact ⟨h6, fun hn => h8 (hn p)⟩

/-- **C79.** Every temporary file leaves a descriptor open, so that `n` of them in a row, each gone before the next, fail as soon as there are
more than the process may have. -/
theorem C79_leak_witness {os : Os} (hf : ∀ s t, (os.file s t).isSome) (pre : Str) (n : ℕ) (s : Fs) (hs : s.fds ≤ os.limit) :
    ((exec os (files pre n) s).2 = true ↔ s.fds + n ≤ os.limit) ∧ (exec os (files pre n) s).1.fds = min (s.fds + n) os.limit := by
  induction n generalizing s with
  | zero =>
    refine ⟨⟨fun _ => hs, fun _ => rfl⟩, ?_⟩
    show s.fds = _
    omega
  | succ n ih =>
    rw [files, exec]
    by_cases hl : s.fds < os.limit
    · obtain ⟨p, hp⟩ := Option.isSome_iff_exists.mp (hf s (template pre))
      have e : exec os (.file pre fun _ => idle) s = (dropFile p { s.set p (some []) with fds := s.fds + 1 }, true) := by
        rw [exec, makeFile, if_pos hl, hp]; rfl
      have e2 : (dropFile p { s.set p (some []) with fds := s.fds + 1 }).fds = s.fds + 1 := by unfold dropFile; split <;> rfl
      rw [e]
      simp only [if_true]
      obtain ⟨i1, i2⟩ := ih (dropFile p { s.set p (some []) with fds := s.fds + 1 }) (by omega)
      rw [e2] at i1 i2
      rw [i1, i2]
      omega
    · have e : exec os (.file pre fun _ => idle) s = (s, false) := by
        rw [exec, makeFile, if_neg hl]
      rw [e]
      simp only [Bool.false_eq_true, if_false, false_iff]
      omega

/-! ## Cases -/

namespace Temp

/-- A system that makes a path longer than all others that begin with the template: here for an empty `/tmp`. -/
noncomputable def fresh (s : Fs) (t : Str) : Option Str :=
  open Classical in if h : ∃ p : Str, t <+: p ∧ ∀ q, Below p q → s.files q = none then some (Classical.choose h) else none

/-- That system as a whole, with 256 descriptors. -/
noncomputable def system : Os := ⟨fun s t => if t = [] then none else fresh s t, fun s t => if t = [] then none else fresh s t, 256⟩

theorem system_fresh {s : Fs} {t p : Str} (h : (if t = [] then none else fresh s t) = some p) : p ≠ [] ∧ ∀ q, Below p q → s.files q = none := by
  split at h
  · cases h
  · rename_i ht
    unfold fresh at h
    split at h
    · rename_i hx
      obtain ⟨h1, h2⟩ := Classical.choose_spec hx
      obtain rfl := Option.some.inj h
      refine ⟨?_, h2⟩
      intro e
      rw [e] at h1
      exact ht (List.prefix_nil.mp h1)
    · cases h

theorem system_promise : Promise system where
  file _ _ p h := ⟨(system_fresh h).1, (system_fresh h).2 p (Or.inl rfl)⟩
  dir _ _ _ h := system_fresh h

end Temp

/-- A directory with a file in it and an exception: nothing is left. -/
example (s : Fs) (q : Str) :
    (exec system (.dir "series".toList fun p => .act fun s => (s.set (p ++ "/f".toList) (some "1 2 3".toList), false)) s).1.files q = s.files q := by
  refine C79_clean system_promise _ (live := ∅) ?_ s (Set.notMem_empty q)
  intro p s q hq
  refine if_neg fun e => hq (Or.inr (Or.inr ?_))
  rw [e]
  exact ⟨['f'], by simp⟩

/-- With 3 descriptors open and a limit of 256, the 254th temporary file fails. -/
example : (exec ⟨fun _ t => some t, fun _ t => some t, 256⟩ (files "a".toList 254) ⟨fun _ => none, 3⟩).2 ≠ true := fun h =>
  absurd ((C79_leak_witness (os := ⟨fun _ t => some t, fun _ t => some t, 256⟩) (fun _ _ => rfl) _ 254 ⟨fun _ => none, 3⟩ (by decide)).1.mp h)
    (by decide)

end Mandelbrot.Props
