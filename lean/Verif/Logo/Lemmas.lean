import Verif.Logo.Model

/-!
# Lemmas on the loops of /repo/logo.cc
-/

namespace Mandelbrot.Logo

theorem mem_upto {a b x : ℤ} : x ∈ upto a b ↔ a ≤ x ∧ x < b := by
  unfold upto
  simp only [List.mem_map, List.mem_range]
  constructor
  · rintro ⟨k, hk, rfl⟩
    omega
  · rintro ⟨h1, h2⟩
    exact ⟨(x - a).toNat, by omega, by omega⟩

theorem nodup_upto (a b : ℤ) : (upto a b).Nodup := by
  unfold upto
  refine List.Nodup.map ?_ List.nodup_range
  intro x y h
  simpa using h

theorem mem_cells {i0 i1 j0 j1 n : ℤ} {t : ℤ × ℤ × ℤ} :
    t ∈ cells i0 i1 j0 j1 n ↔ (i0 ≤ t.1 ∧ t.1 < i1) ∧ (j0 ≤ t.2.1 ∧ t.2.1 < j1) ∧ 0 ≤ t.2.2 ∧ t.2.2 < n := by
  obtain ⟨i, j, s⟩ := t
  unfold cells
  simp only [List.mem_flatMap, List.mem_map, mem_upto, Prod.mk.injEq]
  constructor
  · rintro ⟨a, ha, b, hb, c, hc, rfl, rfl, rfl⟩
    exact ⟨ha, hb, hc⟩
  · rintro ⟨ha, hb, hc⟩
    exact ⟨i, ha, j, hb, s, hc, rfl, rfl, rfl⟩

theorem nodup_cells (i0 i1 j0 j1 n : ℤ) : (cells i0 i1 j0 j1 n).Nodup := by
  unfold cells
  rw [List.nodup_flatMap]
  refine ⟨fun i _ => ?_, ?_⟩
  · rw [List.nodup_flatMap]
    refine ⟨fun j _ => ?_, ?_⟩
    · refine List.Nodup.map ?_ (nodup_upto _ _)
      intro x y h
      simpa using h
    · refine (nodup_upto _ _).imp ?_
      intro x y hxy
      simp only [Function.onFun, List.disjoint_left, List.mem_map]
      rintro t ⟨s, -, rfl⟩ ⟨s', -, h⟩
      simp at h
      exact hxy h.1.symm
  · refine (nodup_upto _ _).imp ?_
    intro x y hxy
    simp only [Function.onFun, List.disjoint_left, List.mem_flatMap, List.mem_map]
    rintro t ⟨j, -, s, -, rfl⟩ ⟨j', -, s', -, h⟩
    simp at h
    exact hxy h.1.symm

/-- The number of a sample. -/
def Canvas.num (c : Canvas) (t : ℤ × ℤ × ℤ) : ℕ := ((t.1 * c.height + t.2.1) * c.samples + t.2.2).toNat

/-- The samples of a canvas. -/
def Canvas.Has (c : Canvas) (t : ℤ × ℤ × ℤ) : Prop :=
  (0 ≤ t.1 ∧ t.1 < c.width) ∧ (0 ≤ t.2.1 ∧ t.2.1 < c.height) ∧ 0 ≤ t.2.2 ∧ t.2.2 < c.samples

theorem Canvas.num_bounds (c : Canvas) {t : ℤ × ℤ × ℤ} (h : c.Has t) :
    0 ≤ (t.1 * c.height + t.2.1) * c.samples + t.2.2 ∧
    (t.1 * c.height + t.2.1) * c.samples + t.2.2 < c.width * c.height * c.samples := by
  obtain ⟨⟨h1, h2⟩, ⟨h3, h4⟩, h5, h6⟩ := h
  constructor
  · have : 0 ≤ t.1 * c.height := mul_nonneg h1 (by omega)
    have : 0 ≤ (t.1 * c.height + t.2.1) * c.samples := mul_nonneg (by omega) (by omega)
    omega
  · have e1 : (t.1 + 1) * c.height ≤ c.width * c.height := mul_le_mul_of_nonneg_right (by omega) (by omega)
    have e2 : t.1 * c.height + t.2.1 + 1 ≤ c.width * c.height := by nlinarith
    have e3 : (t.1 * c.height + t.2.1 + 1) * c.samples ≤ c.width * c.height * c.samples := mul_le_mul_of_nonneg_right e2 (by omega)
    nlinarith

theorem Canvas.index_eq (c : Canvas) {t : ℤ × ℤ × ℤ} (h : c.Has t) : c.index t.1 t.2.1 t.2.2 = .ok (c.num t) := by
  have := c.num_bounds h
  simp [Canvas.index, Canvas.num, this]

theorem Canvas.num_lt (c : Canvas) {t : ℤ × ℤ × ℤ} (h : c.Has t) : (c.num t : ℤ) < c.width * c.height * c.samples := by
  have := c.num_bounds h
  unfold Canvas.num
  omega

theorem divmod_inj {n a b x y : ℤ} (hx : 0 ≤ x ∧ x < n) (hy : 0 ≤ y ∧ y < n) (h : a * n + x = b * n + y) : a = b ∧ x = y := by
  have h1 : (a * n + x) / n = a := by
    rw [add_comm, Int.add_mul_ediv_right _ _ (by omega), Int.ediv_eq_zero_of_lt hx.1 hx.2, zero_add]
  have h2 : (b * n + y) / n = b := by
    rw [add_comm, Int.add_mul_ediv_right _ _ (by omega), Int.ediv_eq_zero_of_lt hy.1 hy.2, zero_add]
  have : a = b := by rw [← h1, ← h2, h]
  subst this
  exact ⟨rfl, by omega⟩

theorem Canvas.num_inj (c : Canvas) {t t' : ℤ × ℤ × ℤ} (h : c.Has t) (h' : c.Has t') (he : c.num t = c.num t') : t = t' := by
  have b1 := c.num_bounds h
  have b2 := c.num_bounds h'
  unfold Canvas.num at he
  have e : (t.1 * c.height + t.2.1) * c.samples + t.2.2 = (t'.1 * c.height + t'.2.1) * c.samples + t'.2.2 := by omega
  obtain ⟨e1, e2⟩ := divmod_inj h.2.2 h'.2.2 e
  obtain ⟨e3, e4⟩ := divmod_inj h.2.1 h'.2.1 e1
  obtain ⟨i, j, s⟩ := t
  obtain ⟨i', j', s'⟩ := t'
  simp_all

/-- Every cell number below the size belongs to a sample. -/
theorem Canvas.num_surj (c : Canvas) (hh : 0 ≤ c.height) (hs : 0 ≤ c.samples) {n : ℕ}
    (hn : (n : ℤ) < c.width * c.height * c.samples) : ∃ t, c.Has t ∧ c.num t = n := by
  have hs' : 0 < c.samples := by
    rcases hs.eq_or_lt with h | h
    · rw [← h] at hn
      omega
    · exact h
  have hh' : 0 < c.height := by
    rcases hh.eq_or_lt with h | h
    · rw [← h] at hn
      simp at hn
      omega
    · exact h
  have a1 := Int.emod_add_mul_ediv (n : ℤ) c.samples
  have a2 := Int.emod_add_mul_ediv ((n : ℤ) / c.samples) c.height
  have b1 := Int.emod_nonneg (n : ℤ) hs'.ne'
  have b2 := Int.emod_lt_of_pos (n : ℤ) hs'
  have b3 := Int.emod_nonneg ((n : ℤ) / c.samples) hh'.ne'
  have b4 := Int.emod_lt_of_pos ((n : ℤ) / c.samples) hh'
  have d1 : 0 ≤ (n : ℤ) / c.samples := Int.ediv_nonneg (by omega) hs
  have d2 : 0 ≤ (n : ℤ) / c.samples / c.height := Int.ediv_nonneg d1 hh
  have d3 : (n : ℤ) / c.samples < c.width * c.height := Int.ediv_lt_of_lt_mul hs' hn
  have d4 : (n : ℤ) / c.samples / c.height < c.width := Int.ediv_lt_of_lt_mul hh' d3
  refine ⟨((n : ℤ) / c.samples / c.height, (n : ℤ) / c.samples % c.height, (n : ℤ) % c.samples), ⟨⟨d2, d4⟩, ⟨b3, b4⟩, b1, b2⟩, ?_⟩
  have : ((n : ℤ) / c.samples / c.height * c.height + (n : ℤ) / c.samples % c.height) * c.samples + (n : ℤ) % c.samples = n := by
    rw [mul_comm ((n : ℤ) / c.samples / c.height), add_comm (c.height * _), a2, mul_comm ((n : ℤ) / c.samples), add_comm, a1]
  simp only [Canvas.num, this, Int.toNat_natCast]

/-- A loop that changes one cell for each element of a list, at different places. -/
theorem foldlM_update {α β : Type} (N : α → ℕ) (g : ℕ → β → β) (idx : α → Res ℕ) (l : List α) (hnd : l.Nodup)
    (hidx : ∀ a ∈ l, idx a = .ok (N a)) (hinj : ∀ a ∈ l, ∀ b ∈ l, N a = N b → a = b) (m : ℕ → β) :
    ∃ m', (l.foldlM (fun (m : ℕ → β) a => do
        let n ← idx a
        .ok (Function.update m n (g n (m n)))) m : Res (ℕ → β)) = .ok m' ∧
      (∀ a ∈ l, m' (N a) = g (N a) (m (N a))) ∧ ∀ n, (∀ a ∈ l, N a ≠ n) → m' n = m n := by
  induction l generalizing m with
  | nil => exact ⟨m, rfl, by simp, fun _ _ => rfl⟩
  | cons a l ih =>
    rw [List.nodup_cons] at hnd
    obtain ⟨m', e, h1, h2⟩ := ih hnd.2 (fun b hb => hidx b (List.mem_cons_of_mem _ hb))
      (fun b hb c hc => hinj b (List.mem_cons_of_mem _ hb) c (List.mem_cons_of_mem _ hc)) (Function.update m (N a) (g (N a) (m (N a))))
    refine ⟨m', ?_, ?_, ?_⟩
    · rw [List.foldlM_cons, hidx a List.mem_cons_self]
      exact e
    · intro b hb
      rcases List.mem_cons.mp hb with rfl | hb'
      · rw [h2 (N b) (fun c hc hcb => ?_), Function.update_self]
        have := hinj c (List.mem_cons_of_mem _ hc) b List.mem_cons_self hcb
        exact hnd.1 (this ▸ hc)
      · rw [h1 b hb', Function.update_of_ne]
        intro hne
        have := hinj b hb a List.mem_cons_self hne
        exact hnd.1 (this ▸ hb')
    · intro n hn
      rw [h2 n (fun b hb => hn b (List.mem_cons_of_mem _ hb)), Function.update_of_ne (hn a List.mem_cons_self).symm]

/-- A loop that stores one value for each element of a list and counts on: what is stored has any property that each step ensures. -/
theorem foldlM_store {α β : Type} (N : α → ℕ) (idx : α → Res ℕ) (v : α → ℕ → β) (d : ℕ) (P : α → β → Prop) (hP : ∀ a k, P a (v a k))
    (l : List α) (hnd : l.Nodup) (hidx : ∀ a ∈ l, idx a = .ok (N a)) (hinj : ∀ a ∈ l, ∀ b ∈ l, N a = N b → a = b)
    (m : ℕ → β) (k : ℕ) :
    ∃ st, (l.foldlM (fun (st : (ℕ → β) × ℕ) a => do
        let n ← idx a
        .ok (Function.update st.1 n (v a st.2), st.2 + d)) (m, k) : Res ((ℕ → β) × ℕ)) = .ok st ∧
      (∀ a ∈ l, P a (st.1 (N a))) ∧ ∀ n, (∀ a ∈ l, N a ≠ n) → st.1 n = m n := by
  induction l generalizing m k with
  | nil => exact ⟨(m, k), rfl, by simp, fun _ _ => rfl⟩
  | cons a l ih =>
    rw [List.nodup_cons] at hnd
    obtain ⟨m', e, h1, h2⟩ := ih hnd.2 (fun b hb => hidx b (List.mem_cons_of_mem _ hb))
      (fun b hb c hc => hinj b (List.mem_cons_of_mem _ hb) c (List.mem_cons_of_mem _ hc)) (Function.update m (N a) (v a k)) (k + d)
    refine ⟨m', ?_, ?_, ?_⟩
    · rw [List.foldlM_cons, hidx a List.mem_cons_self]
      exact e
    · intro b hb
      rcases List.mem_cons.mp hb with rfl | hb'
      · rw [h2 (N b) (fun c hc hcb => ?_), Function.update_self]
        · exact hP _ _
        have := hinj c (List.mem_cons_of_mem _ hc) b List.mem_cons_self hcb
        exact hnd.1 (this ▸ hc)
      · exact h1 b hb'
    · intro n hn
      rw [h2 n (fun b hb => hn b (List.mem_cons_of_mem _ hb)), Function.update_of_ne (hn a List.mem_cons_self).symm]

end Mandelbrot.Logo
