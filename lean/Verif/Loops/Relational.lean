import Verif.Loops.Lemmas

/-!
# Relational form of the result of `map_reduce`

The code calls `map_reduce` with ball arithmetic, where `reduce` is not associative.
-/

set_option linter.unusedSectionVars false

namespace Mandelbrot

variable {Y Z : Type} {reduce : Y → Y → Y} {map : ℤ → Y} {redZ : Z → Z → Z} {mapZ : ℤ → Z}

theorem foldl_rel {R : Z → Y → Prop} (hred : ∀ z y z' y', R z y → R z' y' → R (redZ z z') (reduce y y'))
    {lz : List Z} {ly : List Y} (h : List.Forall₂ R lz ly) {z : Z} {y : Y} (h0 : R z y) :
    R (lz.foldl redZ z) (ly.foldl reduce y) := by
  induction h generalizing z y with
  | nil => exact h0
  | cons h1 _ ih => exact ih (hred _ _ _ _ h0 h1)

theorem mapped_rel {R : Z → Y → Prop} {a b : ℤ} (h : ∀ i, a ≤ i → i < b → R (mapZ i) (map i)) :
    List.Forall₂ R (mapped mapZ a b) (mapped map a b) := by
  unfold mapped
  rw [List.forall₂_map_left_iff, List.forall₂_map_right_iff, List.forall₂_same]
  intro k hk
  rw [List.mem_range] at hk
  exact h _ (by omega) (by omega)

namespace MRState

theorem finish_rel {R : Z → Y → Prop} (hred : ∀ z y z' y', R z y → R z' y' → R (redZ z z') (reduce y y'))
    (hassoc : ∀ y a b, redZ (redZ y a) b = redZ y (redZ a b)) {n : ℤ} {T : ℕ} (hn : 0 ≤ n) (hT : 0 < T)
    (hmap : ∀ i, 0 ≤ i → i < n → R (mapZ i) (map i)) {s : MRState Y}
    (h : Inv reduce map n T s) (hdone : ∀ t < T, s.pc t = .done) {z : Z} {y : Y} (h0 : R z y) :
    R ((mapped mapZ 0 n).foldl redZ z) (s.finish reduce y) := by
  have hTpos : (0 : ℤ) < T := by omega
  have hall : mapped mapZ 0 n =
      (List.range T).flatMap (fun t : ℕ => mapped mapZ (chunkStart n T t) (chunkStart n T (t + 1))) := by
    rw [flatMap_chunks hn hT T le_rfl, chunkStart_last hTpos]
  have hally : mapped map 0 n =
      (List.range T).flatMap (fun t : ℕ => mapped map (chunkStart n T t) (chunkStart n T (t + 1))) := by
    rw [flatMap_chunks hn hT T le_rfl, chunkStart_last hTpos]
  have hv : ∀ t < T, s.slot t =
      fold1 reduce (mapped map (chunkStart n T t) (chunkStart n T (t + 1))) := by
    intro t ht
    have := h.value t ht
    rwa [hdone t ht] at this
  rcases h.size with hz | hz
  · have hempty : s.partials = [] := List.length_eq_zero_iff.mp hz
    have hnil : mapped map 0 n = [] := by
      rw [hally, List.flatMap_eq_nil_iff]
      intro t ht
      rw [List.mem_range] at ht
      have := hv t ht
      simp only [slot, hempty, List.getElem?_nil, Option.join_none] at this
      exact fold1_none reduce this.symm
    have hnilz : mapped mapZ 0 n = [] := by
      have := congrArg List.length hnil
      unfold mapped at this ⊢
      simp only [List.length_map, List.length_range, List.length_nil] at this
      rw [this]; rfl
    rw [hnilz, finish, hempty]
    exact h0
  · have hchunk : ∀ t : ℕ, t < T → 0 ≤ chunkStart n T t ∧ chunkStart n T ((t : ℤ) + 1) ≤ n := by
      intro t ht
      have mono : ∀ k : ℕ, 0 ≤ chunkStart n T k := by
        intro k
        induction k with
        | zero => simpa using (chunkStart_zero (n := n) hTpos).ge
        | succ k ih => have := chunkStart_mono hn hTpos k; push_cast; omega
      have up : ∀ d : ℕ, ∀ k : ℕ, chunkStart n T k ≤ chunkStart n T ((k + d : ℕ) : ℤ) := by
        intro d k
        induction d with
        | zero => simp
        | succ d ih => have := chunkStart_mono hn hTpos (k + d); push_cast at *; rw [← add_assoc]; omega
      refine ⟨mono t, ?_⟩
      have := up (T - (t + 1)) (t + 1)
      rw [show t + 1 + (T - (t + 1)) = T by omega, chunkStart_last hTpos] at this
      exact_mod_cast this
    have hpart : s.partials = (List.range T).map (fun t : ℕ =>
        fold1 reduce (mapped map (chunkStart n T t) (chunkStart n T (t + 1)))) := by
      apply List.ext_getElem
      · simp [hz]
      · intro t h1 h2
        rw [List.getElem_map, List.getElem_range]
        have := hv t (by omega)
        rwa [slot, List.getElem?_eq_getElem h1, Option.join_some] at this
    rw [hall, finish, hpart]
    clear hpart hall hally hv
    have key : ∀ k ≤ T, R (((List.range k).flatMap fun t : ℕ =>
          mapped mapZ (chunkStart n T t) (chunkStart n T (t + 1))).foldl redZ z)
        (((List.range k).map fun t : ℕ => fold1 reduce
          (mapped map (chunkStart n T t) (chunkStart n T (t + 1)))).foldl
            (fun y t => match t with | some t => reduce y t | none => y) y) := by
      intro k hk
      induction k with
      | zero => exact h0
      | succ k ih =>
        have ih := ih (by omega)
        rw [List.range_succ, List.flatMap_append, List.foldl_append, List.map_append, List.foldl_append]
        simp only [List.flatMap_cons, List.flatMap_nil, List.append_nil, List.map_cons, List.map_nil,
          List.foldl_cons, List.foldl_nil]
        rw [← foldl_fold1 redZ hassoc]
        have hm := mapped_rel (R := R) (mapZ := mapZ) (map := map) (a := chunkStart n T k)
          (b := chunkStart n T (k + 1)) (fun i h1 h2 => hmap i
            (by have := (hchunk k (by omega)).1; omega) (by have := (hchunk k (by omega)).2; omega))
        generalize mapped mapZ (chunkStart n T k) (chunkStart n T (k + 1)) = lz at hm ⊢
        generalize mapped map (chunkStart n T k) (chunkStart n T (k + 1)) = ly at hm ⊢
        cases hm with
        | nil => exact ih
        | cons h1 h2 => exact hred _ _ _ _ ih (foldl_rel hred h2 h1)
    exact key T le_rfl

end MRState

end Mandelbrot
