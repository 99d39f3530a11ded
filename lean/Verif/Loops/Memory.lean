import Mathlib.Logic.Function.Basic
import Mathlib.Data.List.Basic
import Mathlib.Data.Set.Basic
import Mathlib.Data.List.Induction

set_option linter.unusedSectionVars false

/-!
# Iterations of a loop kernel as interleaved memory operations

The body of a `DEF_LOOP` iteration (/repo/loops.h 38-51) is modelled as a list of atomic stores; each store
writes one cell with a value computed from the cells it reads.  Local variables are cells of their own.
-/

namespace Mandelbrot

/-- One store: the cell written, the cells read, and the value computed from memory. -/
structure Store (A V : Type) where
  cell : A
  reads : Set A
  value : (A → V) → V
  local_value : ∀ m m' : A → V, (∀ a ∈ reads, m a = m' a) → value m = value m'

namespace Store

variable {A V I : Type} [DecidableEq A]

/-- Perform one store. -/
def exec (u : Store A V) (m : A → V) : A → V := Function.update m u.cell (u.value m)

/-- Perform the stores of one iteration in order. -/
def runBody (l : List (Store A V)) (m : A → V) : A → V := l.foldl (fun m u => u.exec m) m

/-- Perform an interleaving of stores of several iterations. -/
def runTrace (l : List (I × Store A V)) (m : A → V) : A → V := l.foldl (fun m e => e.2.exec m) m

/-- The cells an iteration writes. -/
def Writes (l : List (Store A V)) : Set A := {a | ∃ u ∈ l, u.cell = a}

/-- The cells an iteration reads or writes. -/
def Touches (l : List (Store A V)) : Set A := {a | ∃ u ∈ l, u.cell = a ∨ a ∈ u.reads}

theorem writes_sub_touches {l : List (Store A V)} {a : A} (h : a ∈ Writes l) : a ∈ Touches l := by
  obtain ⟨u, hu, e⟩ := h
  exact ⟨u, hu, Or.inl e⟩

variable [DecidableEq I]

/-- On the cells of iteration `i` an interleaving acts like iteration `i` alone. -/
theorem runTrace_touches {body : I → List (Store A V)} {S : Set I}
    (hd : ∀ i ∈ S, ∀ j ∈ S, i ≠ j → ∀ a ∈ Writes (body i), a ∉ Touches (body j))
    (tr : List (I × Store A V)) (htr : ∀ e ∈ tr, e.1 ∈ S ∧ e.2 ∈ body e.1) (m : A → V) {i : I} (hi : i ∈ S) :
    ∀ a ∈ Touches (body i),
      runTrace tr m a = runBody ((tr.filter (fun e => e.1 = i)).map Prod.snd) m a := by
  induction tr using List.reverseRecOn with
  | nil => intro a _; rfl
  | append_singleton tr e ih =>
    have ih := ih (fun e he => htr e (by simp [he]))
    obtain ⟨hS, hb⟩ := htr e (by simp)
    intro a ha
    have e1 : runTrace (tr ++ [e]) m = e.2.exec (runTrace tr m) := by
      simp [runTrace]
    rw [e1, List.filter_append, List.map_append]
    by_cases hei : e.1 = i
    · have e2 : (([e] : List (I × Store A V)).filter (fun e => e.1 = i)).map Prod.snd = [e.2] := by
        simp [hei]
      rw [e2]
      have e3 : ∀ l : List (Store A V), runBody (l ++ [e.2]) m = e.2.exec (runBody l m) := by
        intro l; simp [runBody]
      rw [e3]
      rw [hei] at hb
      have hval := e.2.local_value (runTrace tr m)
        (runBody ((tr.filter (fun e => e.1 = i)).map Prod.snd) m)
        (fun b hb' => ih b ⟨e.2, hb, Or.inr hb'⟩)
      simp only [exec, Function.update_apply]
      split_ifs
      · exact hval
      · exact ih a ha
    · have e2 : (([e] : List (I × Store A V)).filter (fun e => e.1 = i)).map Prod.snd = [] := by
        simp [hei]
      rw [e2, List.append_nil]
      have : a ≠ e.2.cell := by
        intro h
        exact hd e.1 hS i hi hei e.2.cell ⟨e.2, hb, rfl⟩ (h ▸ ha)
      rw [exec, Function.update_of_ne this]
      exact ih a ha

/-- A cell nobody writes keeps its value. -/
theorem runTrace_untouched {tr : List (I × Store A V)} {a : A} (h : ∀ e ∈ tr, e.2.cell ≠ a) (m : A → V) :
    runTrace tr m a = m a := by
  induction tr using List.reverseRecOn with
  | nil => rfl
  | append_singleton tr e ih =>
    have e1 : runTrace (tr ++ [e]) m = e.2.exec (runTrace tr m) := by simp [runTrace]
    rw [e1, exec, Function.update_of_ne (h e (by simp)).symm]
    exact ih (fun e he => h e (by simp [he]))

/-- The sequential loop as a trace. -/
def seqTrace (body : I → List (Store A V)) (is : List I) : List (I × Store A V) :=
  is.flatMap fun i => (body i).map fun u => (i, u)

theorem runTrace_seqTrace (body : I → List (Store A V)) (is : List I) (m : A → V) :
    runTrace (seqTrace body is) m = is.foldl (fun m i => runBody (body i) m) m := by
  induction is generalizing m with
  | nil => rfl
  | cons i is ih =>
    have : seqTrace body (i :: is) = ((body i).map fun u => (i, u)) ++ seqTrace body is := rfl
    rw [this]
    have e : runTrace (((body i).map fun u => (i, u)) ++ seqTrace body is) m =
        runTrace (seqTrace body is) (runTrace ((body i).map fun u => (i, u)) m) := by
      simp [runTrace]
    rw [e, ih]
    have e2 : runTrace ((body i).map fun u => (i, u)) m = runBody (body i) m := by
      simp [runTrace, runBody, List.foldl_map]
    rw [e2]
    rfl

theorem filter_seqTrace (body : I → List (Store A V)) {is : List I} (hn : is.Nodup) {i : I} (hi : i ∈ is) :
    ((seqTrace body is).filter (fun e => e.1 = i)).map Prod.snd = body i := by
  have other : ∀ (js : List I), i ∉ js → (seqTrace body js).filter (fun e => e.1 = i) = [] := by
    intro js hjs
    rw [List.filter_eq_nil_iff]
    rintro e he
    obtain ⟨j, hj, hu⟩ := List.mem_flatMap.mp he
    obtain ⟨u, _, rfl⟩ := List.mem_map.mp hu
    simp only [decide_eq_true_eq]
    rintro rfl
    exact hjs hj
  induction is with
  | nil => cases hi
  | cons j js ih =>
    have e : seqTrace body (j :: js) = ((body j).map fun u => (j, u)) ++ seqTrace body js := rfl
    rw [List.nodup_cons] at hn
    rw [e, List.filter_append, List.map_append]
    by_cases hij : i = j
    · subst hij
      rw [other js hn.1]
      have : ((body i).map fun u => (i, u)).filter (fun e => e.1 = i) = (body i).map fun u => (i, u) := by
        rw [List.filter_eq_self]
        intro e he
        obtain ⟨u, _, rfl⟩ := List.mem_map.mp he
        simp
      rw [this]
      simp [List.map_map, Function.comp_def]
    · have h1 : ((body j).map fun u => (j, u)).filter (fun e => e.1 = i) = [] := by
        rw [List.filter_eq_nil_iff]
        intro e he
        obtain ⟨u, _, rfl⟩ := List.mem_map.mp he
        simpa using fun h => hij h.symm
      rw [h1, List.map_nil, List.nil_append]
      exact ih hn.2 (by simpa [hij] using hi)

/-- Any complete interleaving leaves the memory the sequential loop leaves. -/
theorem runTrace_eq_seq {body : I → List (Store A V)} {is : List I} (hn : is.Nodup)
    (hd : ∀ i ∈ is, ∀ j ∈ is, i ≠ j → ∀ a ∈ Writes (body i), a ∉ Touches (body j))
    {tr : List (I × Store A V)} (htr : ∀ e ∈ tr, e.1 ∈ is)
    (hproj : ∀ i ∈ is, (tr.filter (fun e => e.1 = i)).map Prod.snd = body i) (m : A → V) :
    runTrace tr m = is.foldl (fun m i => runBody (body i) m) m := by
  rw [← runTrace_seqTrace]
  have key : ∀ tr' : List (I × Store A V), (∀ e ∈ tr', e.1 ∈ is) →
      (∀ i ∈ is, (tr'.filter (fun e => e.1 = i)).map Prod.snd = body i) →
      ∀ e ∈ tr', e.1 ∈ {i | i ∈ is} ∧ e.2 ∈ body e.1 := by
    intro tr' h1 h2 e he
    refine ⟨h1 e he, ?_⟩
    rw [← h2 e.1 (h1 e he)]
    exact List.mem_map.mpr ⟨e, List.mem_filter.mpr ⟨he, by simp⟩, rfl⟩
  have hseq1 : ∀ e ∈ seqTrace body is, e.1 ∈ is := by
    intro e he
    obtain ⟨j, hj, hu⟩ := List.mem_flatMap.mp he
    obtain ⟨u, _, rfl⟩ := List.mem_map.mp hu
    exact hj
  have hseq2 : ∀ i ∈ is, ((seqTrace body is).filter (fun e => e.1 = i)).map Prod.snd = body i :=
    fun i hi => filter_seqTrace body hn hi
  have k1 := key tr htr hproj
  have k2 := key _ hseq1 hseq2
  funext a
  by_cases h : ∃ i ∈ is, a ∈ Touches (body i)
  · obtain ⟨i, hi, ha⟩ := h
    rw [runTrace_touches (S := {i | i ∈ is}) hd tr k1 m hi a ha,
      runTrace_touches (S := {i | i ∈ is}) hd _ k2 m hi a ha, hproj i hi, hseq2 i hi]
  · have un : ∀ tr' : List (I × Store A V), (∀ e ∈ tr', e.1 ∈ {i | i ∈ is} ∧ e.2 ∈ body e.1) →
        runTrace tr' m a = m a := by
      intro tr' hk
      refine runTrace_untouched (fun e he hc => h ⟨e.1, (hk e he).1, ?_⟩) m
      exact ⟨e.2, (hk e he).2, Or.inl hc⟩
    rw [un tr k1, un _ k2]

end Store

end Mandelbrot
