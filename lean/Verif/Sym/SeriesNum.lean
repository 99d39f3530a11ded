import Verif.Sym.SeriesSim
import Verif.Series.NewtonFns

/-!
# The series functions of the generator on numbers, up to five terms
-/

namespace Mandelbrot.Sym

open PowerSeries

section
variable {α β : Type}

/-- A computation without state gives a result. -/
def Runs (m : Gen Unit α) (a : α) : Prop := m () = .ok (a, ())

theorem Runs.pure (a : α) : Runs (Pure.pure a) a := rfl

theorem Runs.bind {m : Gen Unit α} {k : α → Gen Unit β} {a : α} {b : β} (h : Runs m a) (hk : Runs (k a) b) : Runs (m >>= k) b := by
  show (m () >>= fun x => k x.1 x.2) = _
  rw [h]
  exact hk

theorem Runs.ofRes {r : Res α} {a : α} (h : r = .ok a) : Runs (Sym.ofRes r) a := by
  subst h; rfl

theorem Runs.assert {c : Prop} [Decidable c] (h : c) : Runs (Sym.ofRes (slowAssert c)) () :=
  Runs.ofRes (by rw [slowAssert, if_pos h])

end

variable {K : Type} [Field K]

/-! ## Loops -/

omit [Field K] in
theorem loop_ok {f : (ℕ → K) → ℕ → Gen Unit K} (g : (ℕ → K) → ℕ → K) (hf : ∀ d i, Runs (f d i) (g d i)) :
    ∀ (n i : ℕ) (d : ℕ → K), ∃ r, Runs (loopG f i n d) r ∧ (∀ j, ¬(i ≤ j ∧ j < i + n) → r j = d j) ∧
      ∀ j, i ≤ j → j < i + n → r j = g (fun k => if i ≤ k ∧ k < j then r k else d k) j := by
  intro n
  induction n with
  | zero => intro i d; exact ⟨d, Runs.pure d, fun _ _ => rfl, fun j h1 h2 => by omega⟩
  | succ n ih =>
    intro i d
    obtain ⟨r, h1, h2, h3⟩ := ih (i + 1) (Function.update d i (g d i))
    have hi : r i = g d i := by rw [h2 i (by omega)]; simp
    refine ⟨r, Runs.bind (hf d i) h1, fun j hj => ?_, fun j hj hj' => ?_⟩
    · rw [h2 j (by omega), Function.update_of_ne (by omega)]
    · rcases hj.eq_or_lt with rfl | hlt
      · rw [hi]
        congr 1
        funext k
        rw [if_neg (by omega)]
      · rw [h3 j (by omega) (by omega)]
        congr 1
        funext k
        by_cases hk : k = i
        · subst hk
          rw [if_neg (by omega), if_pos (by omega), hi]
          simp
        · rw [Function.update_of_ne hk]
          by_cases hk' : i ≤ k ∧ k < j
          · rw [if_pos hk', if_pos (by omega)]
          · rw [if_neg hk', if_neg (by omega)]

omit [Field K] in
/-- A loop in which each cell is computed from what was there before it. -/
theorem loop_ok' {f : (ℕ → K) → ℕ → Gen Unit K} (g : ℕ → K → K) (hf : ∀ d i, Runs (f d i) (g i (d i))) (n : ℕ) (d : ℕ → K) :
    ∃ r, Runs (loopG f 0 n d) r ∧ ∀ j, j < n → r j = g j (d j) := by
  obtain ⟨r, h1, _, h3⟩ := loop_ok (fun d i => g i (d i)) hf n 0 d
  refine ⟨r, h1, fun j hj => ?_⟩
  rw [h3 j (by omega) (by omega)]
  simp only
  rw [if_neg (by omega)]

/-! ## Products -/

theorem prods_ok : ∀ l : List (K × K), Runs (prodsG (numArith K) l) (l.map fun p => p.1 * p.2) := by
  intro l
  induction l with
  | nil => exact Runs.pure _
  | cons p l ih => exact Runs.bind (Runs.pure _) (Runs.bind ih (Runs.pure _))

/-- One coefficient of a product of `nx` and `ny` terms. -/
def conv (nx ny : ℕ) (x y : ℕ → K) (i : ℕ) : K :=
  ∑ j ∈ Finset.range (i + 1), if j < nx ∧ i - j < ny then x j * y (i - j) else 0

theorem sum_filter_list (p : ℕ → Prop) [DecidablePred p] (f : ℕ → K) : ∀ l : List ℕ,
    ((l.filter fun j => p j).map f).sum = (l.map fun j => if p j then f j else 0).sum := by
  intro l
  induction l with
  | nil => rfl
  | cons a l ih =>
    by_cases h : p a
    · simp [h, ih]
    · simp [h, ih]

theorem coef_ok (nx ny : ℕ) (x y : ℕ → K) (i : ℕ) : Runs (coefG (numArith K) nx ny x y i) (conv nx ny x y i) := by
  refine Runs.bind (prods_ok _) ?_
  have : conv nx ny x y i = ((List.range (i + 1)).map fun j => if j < nx ∧ i - j < ny then x j * y (i - j) else 0).sum := rfl
  rw [this, ← sum_filter_list (fun j => j < nx ∧ i - j < ny) (fun j => x j * y (i - j)), List.map_map]
  exact Runs.pure _

theorem conv_comm (nx ny : ℕ) (x y : ℕ → K) (i : ℕ) : conv nx ny x y i = conv ny nx y x i := by
  unfold conv
  rw [← Finset.sum_range_reflect]
  refine Finset.sum_congr rfl fun j hj => ?_
  have hj := Finset.mem_range.mp hj
  have e1 : i + 1 - 1 - j = i - j := by omega
  have e2 : i - (i - j) = j := by omega
  rw [e1, e2]
  by_cases h : i - j < nx ∧ j < ny
  · rw [if_pos h, if_pos h.symm, mul_comm]
  · rw [if_neg h, if_neg fun h' => h h'.symm]

/-- What is read from the destination in step `i` of a product. -/
def mixed (r d : ℕ → K) (i : ℕ) : ℕ → K := fun k => if k < i then r k else d k

theorem fftMul_ok (al : Al) (nz nx ny : ℕ) (x y z : ℕ → K) (hl : al = .left → z = x) (hr : al = .right → z = y) :
    ∃ r, Runs (fftMulG (numArith K) al nz nx ny x y z) r ∧ ∀ i, i < nz → r i =
      conv nx ny (if al = .left then mixed r x i else x) (if al = .right then mixed r y i else y) i := by
  obtain ⟨r, h1, _, h3⟩ := loop_ok (fun d i => conv nx ny (if al = .left then d else x) (if al = .right then d else y) i)
    (fun d i => coef_ok nx ny _ _ i) nz 0 z
  refine ⟨r, h1, fun i hi => ?_⟩
  rw [h3 i (by omega) (by omega)]
  cases al with
  | none => rfl
  | left => simp [hl rfl]; rfl
  | right => simp [hr rfl]; rfl

omit [Field K] in
theorem lowSpan_len (x : Ser K) (n : ℤ) : (x.lowSpan n).len = (min (relu n) x.nonzero).toNat := rfl

/-- The operands of a product as series. -/
theorem conv_ps {x y : Ser K} {nz : ℤ} {i : ℕ} (hi : (i : ℤ) < nz) :
    conv (x.lowSpan nz).len (y.lowSpan nz).len x.data y.data i = coeff i (x.ps * y.ps) := by
  rw [coeff_mul, Finset.Nat.sum_antidiagonal_eq_sum_range_succ_mk]
  refine Finset.sum_congr rfl fun j hj => ?_
  have hj := Finset.mem_range.mp hj
  simp only [Ser.coeff_ps, lowSpan_len, relu_of_nonneg (show 0 ≤ nz by omega)]
  by_cases h1 : (j : ℤ) < x.nonzero <;> by_cases h2 : ((i - j : ℕ) : ℤ) < y.nonzero
  · rw [if_pos h1, if_pos h2, if_pos (by omega)]
  · rw [if_neg h2, if_neg (by omega), mul_zero]
  · rw [if_neg h1, if_neg (by omega), zero_mul]
  · rw [if_neg h1, if_neg (by omega), zero_mul]

/-- A product into its first operand, which has `m0` leading zeros, is right in the first `m0 + 2` terms if the other operand
starts with one. -/
theorem conv_in_place {x y : Ser K} {nz : ℤ} {m0 m : ℕ} {r : ℕ → K} (hx : ∀ j, j < m0 → coeff j x.ps = 0)
    (hy : m0 + 1 < m → coeff 0 y.ps = 1) (hm : m ≤ m0 + 2) (hnz : nz ≤ m)
    (hr : ∀ i, i < nz.toNat → r i = conv (x.lowSpan nz).len (y.lowSpan nz).len (mixed r x.data i) y.data i) :
    ∀ i, i < nz.toNat → r i = coeff i (x.ps * y.ps) := by
  have hlow : ∀ j, j ≤ m0 → j + 1 < m → coeff j (x.ps * y.ps) = coeff j x.ps := by
    intro j hj hjm
    rw [coeff_mul, Finset.Nat.sum_antidiagonal_eq_sum_range_succ_mk, Finset.sum_range_succ, Finset.sum_eq_zero, zero_add]
    · rcases hj.eq_or_lt with rfl | hlt
      · rw [Nat.sub_self, hy hjm, mul_one]
      · rw [hx j hlt, zero_mul]
    · intro k hk
      have := Finset.mem_range.mp hk
      simp only
      rw [hx k (by omega), zero_mul]
  intro i
  induction i using Nat.strong_induction_on with
  | _ i ih =>
    intro hi
    rw [hr i hi, ← conv_ps (nz := nz) (by omega)]
    refine Finset.sum_congr rfl fun j hj => ?_
    have hj := Finset.mem_range.mp hj
    by_cases hji : j < i
    · by_cases hc : j < (x.lowSpan nz).len ∧ i - j < (y.lowSpan nz).len
      · rw [if_pos hc, if_pos hc, mixed, if_pos hji, ih j hji (by omega), hlow j (by omega) (by omega), Ser.coeff_ps, if_pos]
        have := hc.1
        rw [lowSpan_len] at this
        omega
      · rw [if_neg hc, if_neg hc]
    · simp only [mixed, if_neg hji]

/-! ## Series -/

/-- What aliasing a product tolerates: `m0` leading zeros in the operand that is overwritten. -/
structure InPlace (al : Al) (z x y : Ser K) (m : ℕ) (F G : K⟦X⟧) : Prop where
  left : al = .left → z.data = x.data ∧ ∃ m0, m ≤ m0 + 2 ∧ Agree m0 F 0 ∧ (m0 < m → constantCoeff G = 1)
  right : al = .right → z.data = y.data ∧ ∃ m0, m ≤ m0 + 2 ∧ Agree m0 G 0 ∧ (m0 < m → constantCoeff F = 1)

theorem InPlace.none {z x y : Ser K} {m : ℕ} {F G : K⟦X⟧} : InPlace .none z x y m F G :=
  ⟨fun h => (nomatch h), fun h => (nomatch h)⟩

theorem mulG_has {al : Al} {z x y : Ser K} {nx ny n : ℕ} {F G : K⟦X⟧} (hx : x.Has nx F) (hy : y.Has ny G) (hn : n = min nx ny)
    (hl : n ≤ z.limit) (ha : InPlace al z x y n F G) :
    ∃ z' : Ser K, Runs (mulG (numArith K) al z x y) z' ∧ z'.limit = z.limit ∧ z'.Has n (F * G) ∧
      z'.nonzero = min (n : ℤ) (relu (x.nonzero + y.nonzero - 1)) := by
  have hk : min x.known y.known = n := by rw [hx.known, hy.known, hn]; push_cast; rfl
  have hx0 := hx.wf.nonneg
  have hy0 := hy.wf.nonneg
  set nz : ℤ := min (n : ℤ) (relu (x.nonzero + y.nonzero - 1)) with hnz
  have hnz0 : 0 ≤ nz := by rw [hnz]; unfold relu; omega
  have hnzn : nz ≤ n := min_le_left _ _
  have hsc := Ser.setCounts_ok z (k := (n : ℤ)) hnz0 hnzn (hnzn.trans hl)
  obtain ⟨r, h1, h2⟩ := fftMul_ok al nz.toNat (x.lowSpan nz).len (y.lowSpan nz).len x.data y.data z.data
    (fun h => (ha.left h).1) (fun h => (ha.right h).1)
  have hr : ∀ i, i < nz.toNat → r i = coeff i (x.ps * y.ps) := by
    cases al with
    | none =>
      intro i hi
      rw [h2 i hi, ← conv_ps (nz := nz) (by omega)]
      rfl
    | left =>
      obtain ⟨_, m0, hm, hF, hG⟩ := ha.left rfl
      refine conv_in_place (m0 := min m0 n) (m := n) (fun j hj => ?_) (fun h => ?_) (by omega) hnzn fun i hi => ?_
      · rw [hx.agree j (by omega), hF j (by omega)]; simp
      · rw [hy.agree 0 (by omega), coeff_zero_eq_constantCoeff_apply, hG (by omega)]
      · rw [h2 i hi]; simp
    | right =>
      obtain ⟨_, m0, hm, hG, hF⟩ := ha.right rfl
      rw [mul_comm]
      refine conv_in_place (m0 := min m0 n) (m := n) (fun j hj => ?_) (fun h => ?_) (by omega) hnzn fun i hi => ?_
      · rw [hy.agree j (by omega), hG j (by omega)]; simp
      · rw [hx.agree 0 (by omega), coeff_zero_eq_constantCoeff_apply, hF (by omega)]
      · rw [h2 i hi, conv_comm]; simp
  refine ⟨⟨z.limit, n, nz, r⟩, ?_, rfl, ⟨⟨⟨hnz0, hnzn, hnzn.trans hl⟩, rfl, ?_⟩, ?_⟩, rfl⟩
  · unfold mulG
    simp only [hk]
    rw [← hnz]
    exact Runs.bind (Runs.ofRes hsc) (Runs.bind h1 (Runs.pure _))
  · intro i hi
    have e : coeff i (x.ps * y.ps) = coeff i (F * G) :=
      ((hx.agree.mono (by omega)).mul (hy.agree.mono (by omega)) : Agree n _ _) i hi
    rw [Ser.coeff_ps]
    simp only
    split_ifs with h
    · rw [hr i (by omega), e]
    · rw [← e, Ser.coeff_mul_ps_of_le]
      rw [hnz] at h
      unfold relu at h
      omega
  · intro h0
    have h1 := hx.pos (by omega)
    have h2 := hy.pos (by omega)
    show 1 ≤ nz
    rw [hnz]; unfold relu; omega

theorem addScalarG_has {x : Ser K} {n : ℕ} {F : K⟦X⟧} (hx : x.Has n F) (hn : 0 < n) (a : K) :
    ∃ y : Ser K, Runs (addScalarG (numArith K) x a) y ∧ y.limit = x.limit ∧ y.Has n (F + C a) ∧ y.nonzero = x.nonzero := by
  have hp := hx.pos hn
  refine ⟨{ x with data := Function.update x.data 0 (x.data 0 + a) }, ?_, rfl, ⟨⟨⟨hx.wf.nonneg, hx.wf.le_known, hx.wf.le_limit⟩, hx.known, fun i hi => ?_⟩, hx.pos⟩, rfl⟩
  · exact Runs.bind (Runs.assert (by omega)) (Runs.bind (Runs.pure _) (Runs.pure _))
  · have h1 := hx.agree i hi
    rw [map_add, ← h1, Ser.coeff_ps, Ser.coeff_ps, coeff_C]
    simp only
    rcases Nat.eq_zero_or_pos i with rfl | hi0
    · simp only [Function.update_self, if_true]
      rw [if_pos (by omega), if_pos (by omega)]
    · rw [Function.update_of_ne (by omega), if_neg (by omega : ¬i = 0), add_zero]

theorem highSubG_has {y x : Ser K} {ny nx n s : ℕ} {F G : K⟦X⟧} (hy : y.Has ny F) (hx : x.Is nx G)
    (hn : n = min ny (nx + s)) (hl : n ≤ y.limit) :
    ∃ y' : Ser K, Runs (highAddsubG (numArith K) y (-1) s x) y' ∧ y'.limit = y.limit ∧ y'.Has n (F - X ^ s * G) ∧
      y'.nonzero = min (n : ℤ) (max y.nonzero (if x.nonzero ≠ 0 then x.nonzero + s else 0)) := by
  have hk : min y.known (x.known + s) = n := by rw [hx.known, hy.known, hn]; push_cast; rfl
  have hx0 := hx.wf.nonneg
  have hy0 := hy.wf.nonneg
  set nz : ℤ := min (n : ℤ) (max y.nonzero (if x.nonzero ≠ 0 then x.nonzero + s else 0)) with hnz
  have hnz0 : 0 ≤ nz := by rw [hnz]; omega
  have hnzn : nz ≤ n := min_le_left _ _
  have hsc := Ser.setCounts_ok y (k := (n : ℤ)) hnz0 hnzn (hnzn.trans hl)
  obtain ⟨r, h1, h2⟩ := loop_ok' (f := fun d i => do
      let yi := if (i : ℤ) < y.nonzero then d i else (numArith K).int 0
      let xi := if 0 ≤ (i : ℤ) - s ∧ (i : ℤ) - s < x.nonzero then x.data ((i : ℤ) - s).toNat else (numArith K).int 0
      let xi ← if (-1 : ℤ) < 0 then (numArith K).neg xi else pure xi
      (numArith K).add yi xi)
    (fun i v => (if (i : ℤ) < y.nonzero then v else ((0 : ℤ) : K)) +
      -(if 0 ≤ (i : ℤ) - s ∧ (i : ℤ) - s < x.nonzero then x.data ((i : ℤ) - s).toNat else ((0 : ℤ) : K)))
    (fun d i => by
      simp only [if_pos (show (-1 : ℤ) < 0 by norm_num)]
      exact Runs.bind (Runs.pure _) (Runs.pure _)) nz.toNat y.data
  refine ⟨⟨y.limit, n, nz, r⟩, ?_, rfl, ⟨⟨⟨hnz0, hnzn, hnzn.trans hl⟩, rfl, ?_⟩, ?_⟩, rfl⟩
  · unfold highAddsubG
    simp only [hk]
    rw [← hnz]
    exact Runs.bind (Runs.assert ⟨by simp, hnzn.trans hl⟩) (Runs.bind (Runs.ofRes hsc) (Runs.bind h1 (Runs.pure _)))
  · intro i hi
    have e1 := hy.agree i (by omega)
    rw [map_sub, ← e1, coeff_X_pow_mul', Ser.coeff_ps, Ser.coeff_ps]
    simp only
    have e2 : (if s ≤ i then coeff (i - s) G else 0) =
        if 0 ≤ (i : ℤ) - s ∧ (i : ℤ) - s < x.nonzero then x.data ((i : ℤ) - s).toNat else ((0 : ℤ) : K) := by
      by_cases hs : s ≤ i
      · rw [if_pos hs, ← hx.agree (i - s) (by omega), Ser.coeff_ps, show ((i : ℤ) - s).toNat = i - s by omega]
        by_cases hz : ((i - s : ℕ) : ℤ) < x.nonzero
        · rw [if_pos hz, if_pos (by omega)]
        · rw [if_neg hz, if_neg (by omega)]; simp
      · rw [if_neg hs, if_neg (by omega)]; simp
    rw [e2]
    by_cases h : (i : ℤ) < nz
    · rw [if_pos h, h2 i (by omega), ← sub_eq_add_neg]
      simp only [Int.cast_zero]
    · rw [if_neg h]
      have h3 : ¬ (i : ℤ) < y.nonzero := by omega
      have h4 : ¬ (0 ≤ (i : ℤ) - s ∧ (i : ℤ) - s < x.nonzero) := by
        rw [hnz] at h
        split_ifs at h <;> omega
      rw [if_neg h3, if_neg h4]; simp
  · intro h0
    have := hy.pos (by omega)
    show 1 ≤ nz
    rw [hnz]; omega

theorem high_isG {x : Ser K} {m m0 : ℕ} {D : K⟦X⟧} (hx : x.Has m D) (hm : m0 ≤ m)
    (hD : Agree m0 D 0) : ∃ R, (x.high m0).Is (m - m0) R ∧ X ^ m0 * R = x.ps :=
  ⟨(x.high m0).ps, Ser.Is.self (Ser.high_wf hx.wf m0) _
    (by rw [Ser.high_known, hx.known]; unfold relu; omega),
    Ser.X_pow_mul_high ((hx.agree.mono hm).trans hD)⟩

theorem newtonSubG_has {y dy : Ser K} {m0 m : ℕ} {F D : K⟦X⟧} (hy : y.Has m F) (hdy : dy.Has m D)
    (hm : m0 ≤ m) (hD : Agree m0 D 0) (hl : m ≤ y.limit) :
    ∃ y' : Ser K, Runs (highAddsubG (numArith K) y (-1) m0 (dy.high m0)) y' ∧ y'.limit = y.limit ∧ y'.Has m (F - D) ∧
      y'.nonzero = min (m : ℤ) (max y.nonzero (if (dy.high m0).nonzero ≠ 0 then (dy.high m0).nonzero + m0 else 0)) := by
  obtain ⟨R, h1, h2⟩ := high_isG hdy hm hD
  obtain ⟨y', e, h3, h4, h5⟩ := highSubG_has (n := m) (s := m0) hy h1 (by omega) hl
  refine ⟨y', e, h3, h4.congr ?_, h5⟩
  rw [h2]
  exact Agree.rfl'.sub hdy.agree

/-! ## Series functions -/

theorem newG_limit (n : ℕ) : (newG (numArith K) n).limit = n := Ser.new_limit n _

theorem setKnown_newtonG {y : Ser K} {m0 m : ℕ} {r : Bool} {F : K⟦X⟧}
    (h : y.Has (if r then m else m0) F) (h0 : 0 < m0) (hm : m0 ≤ m) :
    ∃ y' : Ser K, y.setKnown m = .ok y' ∧ y'.limit = y.limit ∧ y'.nonzero = min y.nonzero m ∧ ∃ G, y'.Has m G ∧ Agree m0 G F := by
  obtain ⟨y', e, h1, h2⟩ := Ser.setKnown_has h (by split_ifs <;> omega) (show 0 < m by omega)
  refine ⟨y', e, h1, ?_, y.ps, h2, h.agree.mono (by split_ifs <;> omega)⟩
  obtain ⟨_, _, h⟩ := Ser.bind_eq_ok e
  cases h
  rfl

theorem newton_fullG {y y1 dy y2 : Ser K} {m0 m : ℕ} {r : Bool} (e1 : y1.nonzero = min y.nonzero m)
    (e5 : y2.nonzero = min (m : ℤ) (max y1.nonzero (if (dy.high m0).nonzero ≠ 0 then (dy.high m0).nonzero + m0 else 0)))
    (k4 : dy.known = m) (f3 : dy.nonzero = m) (hm : m0 ≤ m) (hy : y.nonzero = (if r then m else m0 : ℕ)) : y2.nonzero = m := by
  rw [Ser.high_nonzero, f3] at e5
  unfold relu at e5
  rcases hm.eq_or_lt with rfl | hlt
  · cases r <;> simp at hy <;> rw [e5, e1, hy] <;> simp
  · rw [e5, if_pos (by omega)]
    omega

theorem newtonG_rule {σ : Type} (step : ℤ → ℤ → Bool → σ → Gen Unit σ) (n : ℕ) (P : ℕ → σ → Prop)
    (hstep : ∀ (m0 m : ℕ) (r : Bool) (s : σ), 0 < m0 → m0 ≤ m → m ≤ 2 * m0 → m ≤ n →
      P (if r then m else m0) s → ∃ s', Runs (step m0 m r s) s' ∧ P m s')
    (n0 : ℕ) (s : σ) (hn : n0 ≤ n) (h0 : n0 < n → 0 < n0) (hP : P n0 s) :
    ∃ s', Runs (newtonG step n0 n s) s' ∧ P n s' := by
  obtain ⟨⟨s', u⟩, h1, h2⟩ := newtonIterate_rule (fun m0 m r p => step m0 m r p.1 p.2) n (fun m p => P m p.1)
    (fun m0 m r p a b c d h => by
      obtain ⟨s', h1, h2⟩ := hstep m0 m r p.1 a b c d h
      exact ⟨(s', ()), h1, h2⟩) n0 (s, ()) hn h0 hP
  exact ⟨s', h1, h2⟩

theorem invG_has {y x : Ser K} {n : ℕ} {F : K⟦X⟧} (hx : x.Has n F) (hF : 0 < n → constantCoeff F = 1) (hl : n ≤ y.limit)
    (h5 : n ≤ 5) : ∃ y' : Ser K, Runs (invG (numArith K) y x) y' ∧ y'.limit = y.limit ∧ y'.Has n F⁻¹ ∧
      (x.nonzero = n → y'.nonzero = n) := by
  unfold invG
  rcases Nat.eq_zero_or_pos n with rfl | hn
  · obtain ⟨h1, h2⟩ := Ser.setUnknown_has (y := y) F⁻¹ (by simpa using hl)
    simp only [hx.known]
    exact ⟨_, Runs.pure _, h1, h2, fun _ => rfl⟩
  have hF1 := hF hn
  have hF : constantCoeff F ≠ 0 := by rw [hF1]; exact one_ne_zero
  have hi1 : constantCoeff F⁻¹ = 1 := by rw [constantCoeff_inv, hF1, inv_one]
  have hp := hx.pos hn
  have hn' : ¬ ((n : ℤ) = 0) := by omega
  have hsc := Ser.setCounts_ok y (k := 1) (z := 1) (by omega) (by omega) (by omega)
  have hb : Runs (invBaseG (numArith K) y x) ⟨y.limit, 1, 1, Function.update y.data 0 (x.data 0)⁻¹⟩ := by
    unfold invBaseG
    refine Runs.bind (Runs.ofRes hsc) ?_
    simp only
    rw [if_pos (by omega : x.nonzero ≠ 0)]
    exact Runs.bind (Runs.pure _) (Runs.pure _)
  set y0 : Ser K := ⟨y.limit, 1, 1, Function.update y.data 0 (x.data 0)⁻¹⟩ with hy0
  have hb1 : y0.Has 1 F⁻¹ := by
    refine ⟨⟨⟨by simp [hy0], by simp [hy0], by simp only [hy0]; omega⟩, rfl, fun i hi => ?_⟩, fun _ => le_rfl⟩
    obtain rfl : i = 0 := by omega
    rw [Ser.coeff_ps, if_pos (by simp [hy0]), coeff_zero_eq_constantCoeff_apply, constantCoeff_inv, hy0]
    simp only [Function.update_self]
    rw [hx.data_zero hn]
  let P : ℕ → Ser K × Ser K → Prop := fun m st =>
    st.1.limit = y.limit ∧ st.2.limit = n ∧ st.1.Has m F⁻¹ ∧ (x.nonzero = n → st.1.nonzero = m)
  have hstep : ∀ (m0 m : ℕ) (r : Bool) (st : Ser K × Ser K), 0 < m0 → m0 ≤ m → m ≤ 2 * m0 → m ≤ n →
      P (if r then m else m0) st → ∃ st', Runs (invStepG (numArith K) x m0 m r st) st' ∧ P m st' := by
    rintro m0 m r ⟨y, dy⟩ h0 hm hm2 hmn ⟨hyl, hdl, hy, hyf⟩
    simp only at hyl hdl hy hyf
    obtain ⟨y1, e1, l1, z1, G, hy1, hG⟩ := setKnown_newtonG hy h0 hm
    have hG1 : constantCoeff G = 1 := by rw [hG.constantCoeff_eq h0, hi1]
    obtain ⟨d1, e2, l2, hd1, z2⟩ := mulG_has (z := dy) (n := m) hx hy1 (by omega) (by omega) InPlace.none
    obtain ⟨d2, e3, l3, hd2, z3⟩ := addScalarG_has hd1 (by omega) (((-1 : ℤ) : K))
    have hFi := PowerSeries.mul_inv_cancel F hF
    have hr : Agree m0 (F * G + C (((-1 : ℤ) : K))) 0 := by
      have := ((Agree.rfl' (n := m0) (F := F)).mul hG).add (Agree.rfl' (F := C (((-1 : ℤ) : K))))
      rw [hFi] at this
      refine this.trans (Agree.of_eq ?_)
      simp
    obtain ⟨d3, e4, l4, hd3, z4⟩ := mulG_has (al := .left) (z := d2) (n := m) hd2 hy1 (by omega) (by omega)
      ⟨fun _ => ⟨rfl, m0, by omega, hr, fun _ => hG1⟩, fun h => (nomatch h)⟩
    obtain ⟨y2, e5, l5, hy2, z5⟩ := newtonSubG_has hy1 hd3 hm (hr.mul_zero_left G) (by omega)
    refine ⟨(y2, d3), ?_, by simp only; omega, by simp only; omega, hy2.congr ?_, ?_⟩
    · exact Runs.bind (Runs.ofRes e1) (Runs.bind e2 (Runs.bind e3 (Runs.bind e4 (Runs.bind e5 (Runs.pure _)))))
    · refine Agree.mul_left_cancel hF ?_
      have h2 := (hr.mul_zeros hr).mono (show m ≤ m0 + m0 by omega)
      have : F * (G - (F * G + C (((-1 : ℤ) : K))) * G) - F * F⁻¹ =
          -((F * G + C (((-1 : ℤ) : K))) * (F * G + C (((-1 : ℤ) : K)))) := by
        rw [hFi]
        have hc : (C (((-1 : ℤ) : K)) : K⟦X⟧) = -1 := by simp
        rw [hc]; ring
      rw [agree_iff_dvd, this, dvd_neg, ← sub_zero (_ * _), ← agree_iff_dvd]
      exact h2
    · intro hfull
      have p1 := hy1.pos (by omega)
      have f2 : d2.nonzero = m := by rw [z3, z2]; unfold relu; omega
      have f3 : d3.nonzero = m := by rw [z4]; unfold relu; omega
      exact newton_fullG z1 z5 hd3.known f3 hm (hyf hfull)
  obtain ⟨st, es, hs1, hs2, hs3, hs4⟩ := newtonG_rule (invStepG (numArith K) x) n P hstep 1
    (y0, newG (numArith K) n) hn (fun _ => by omega) ⟨rfl, newG_limit n, hb1, fun _ => rfl⟩
  refine ⟨st.1, ?_, hs1, hs3, hs4⟩
  simp only [hx.known, if_neg hn']
  exact Runs.bind (Runs.assert (by omega)) (Runs.bind hb (Runs.bind es (Runs.pure _)))

theorem divG_has {y a b : Ser K} {na nb n : ℕ} {A B : K⟦X⟧}
    (ha : a.Has na A) (hb : b.Has nb B) (hn : n = min na nb) (hB : 0 < n → constantCoeff B = 1)
    (hl : n ≤ y.limit) (h5 : n ≤ 5) :
    ∃ y' : Ser K, Runs (divG (numArith K) y a b) y' ∧ y'.limit = y.limit ∧ y'.Has n (A * B⁻¹) := by
  have hk : min a.known b.known = n := by rw [ha.known, hb.known, hn]; push_cast; rfl
  have hbl : (b.low n).Has n B := by
    have := Ser.low_has hb n; rwa [show min n nb = n by omega] at this
  have hc : Agree n (B * (A * B⁻¹) - A) 0 := by
    rcases Nat.eq_zero_or_pos n with h0 | h0
    · rw [h0]; exact Agree.zero _ _
    · refine Agree.of_eq ?_
      have := PowerSeries.mul_inv_cancel B (by rw [hB h0]; exact one_ne_zero)
      linear_combination A * this
  obtain ⟨i, e1, l1, hi, _⟩ := invG_has (y := newG (numArith K) n) hbl hB (by rw [newG_limit]) h5
  obtain ⟨y1, e2, l2, hy1, _⟩ := mulG_has (z := y) (n := n) ha hi (by omega) hl InPlace.none
  obtain ⟨d1, e3, l3, hd1, _⟩ := mulG_has (z := newG (numArith K) n) (n := n) hb hy1 (by omega) (by rw [newG_limit]) InPlace.none
  rw [newG_limit] at l3
  obtain ⟨d2, e4, l4, hd2, _⟩ := highSubG_has (s := 0) (n := n) hd1 ha.is (by omega) (by omega)
  rw [pow_zero, one_mul] at hd2
  obtain ⟨d3, e5, l5, hd3, _⟩ := mulG_has (al := .left) (z := d2) (n := n) hd2 hi (by omega) (by omega)
    ⟨fun _ => ⟨rfl, n, by omega, hc, fun h => by omega⟩, fun h => (nomatch h)⟩
  obtain ⟨y2, e6, l6, hy2, _⟩ := highSubG_has (s := 0) (n := n) hy1 hd3.is (by omega) (by omega)
  refine ⟨y2, ?_, by omega, hy2.congr ?_⟩
  · unfold divG
    simp only [hk]
    exact Runs.bind e1 (Runs.bind e2 (Runs.bind e3 (Runs.bind e4 (Runs.bind e5 e6))))
  · rw [pow_zero, one_mul]
    have := (Agree.rfl' (n := n) (F := A * B⁻¹)).sub (hc.mul_zero_left B⁻¹)
    rwa [sub_zero] at this

theorem derivativeG_has {y x : Ser K} {n : ℕ} {F : K⟦X⟧} (hx : x.Has n F) (hl : n ≤ y.limit) :
    ∃ y' : Ser K, Runs (derivativeG (numArith K) y x) y' ∧ y'.limit = y.limit ∧ y'.Has n (Ser.dshift 0 F) := by
  have hx0 := hx.wf.nonneg
  have hle := hx.nonzero_le
  have hsc := Ser.setCounts_ok y (k := x.known) (z := x.nonzero) hx0 hx.wf.le_known (hle.trans hl)
  obtain ⟨r, h1, h2⟩ := loop_ok' (f := fun _ i => (numArith K).mul ((numArith K).int (0 + i)) (x.data i))
    (fun i _ => (((0 : ℤ) + i : ℤ) : K) * x.data i) (fun d i => Runs.pure _) x.nonzero.toNat y.data
  refine ⟨⟨y.limit, x.known, x.nonzero, r⟩, Runs.bind (Runs.ofRes hsc) (Runs.bind h1 (Runs.pure _)), rfl,
    ⟨⟨⟨hx0, hx.wf.le_known, hle.trans hl⟩, hx.known, fun i hi => ?_⟩, hx.pos⟩⟩
  rw [Ser.coeff_dshift, ← hx.agree i hi, Ser.coeff_ps, Ser.coeff_ps]
  simp only
  split_ifs with h
  · rw [h2 i (by omega)]; push_cast; rfl
  · rw [mul_zero]

theorem integralG_has [CharZero K] {y : Ser K} {n : ℕ} {F : K⟦X⟧} (hy : y.Has n (Ser.dshift 0 F)) (h0 : constantCoeff F = 0)
    : ∃ y' : Ser K, Runs (integralG (numArith K) y) y' ∧ y'.limit = y.limit ∧ y'.Has n F := by
  have hy0 := hy.wf.nonneg
  have hsc := Ser.setCounts_ok y (k := y.known) (z := y.nonzero) hy0 hy.wf.le_known hy.wf.le_limit
  obtain ⟨r, h1, h2⟩ := loop_ok' (f := fun d i => if 0 + (i : ℤ) ≠ 0 then (numArith K).div (d i) (0 + i) else pure ((numArith K).int 0))
    (fun i v => if 0 + (i : ℤ) ≠ 0 then v / ((0 + (i : ℤ) : ℤ) : K) else ((0 : ℤ) : K))
    (fun d i => by
      by_cases h : 0 + (i : ℤ) ≠ 0
      · simp only [if_pos h]; exact Runs.pure _
      · simp only [if_neg h]; exact Runs.pure _) y.nonzero.toNat y.data
  refine ⟨⟨y.limit, y.known, y.nonzero, r⟩, Runs.bind (Runs.ofRes hsc) (Runs.bind h1 (Runs.pure _)), rfl,
    ⟨⟨⟨hy0, hy.wf.le_known, hy.wf.le_limit⟩, hy.known, fun i hi => ?_⟩, hy.pos⟩⟩
  have e := hy.agree i hi
  rw [Ser.coeff_dshift, Ser.coeff_ps] at e
  rw [Ser.coeff_ps]
  simp only
  rcases Nat.eq_zero_or_pos i with rfl | hi0
  · rw [coeff_zero_eq_constantCoeff_apply, h0]
    split_ifs with h
    · rw [h2 0 (by omega)]; simp
    · rfl
  · have hne : (i : K) ≠ 0 := by exact_mod_cast hi0.ne'
    rw [zero_add] at e
    split_ifs at e ⊢ with h
    · rw [h2 i (by omega), if_pos (by omega), e, zero_add]
      push_cast
      field_simp
    · exact ((mul_eq_zero.mp e.symm).resolve_left hne).symm

theorem dshift_zeroG (F : K⟦X⟧) : Ser.dshift 0 F = X * d⁄dX K F := by
  ext i
  rcases i with _ | i
  · simp [Ser.coeff_dshift]
  · rw [Ser.coeff_dshift, coeff_succ_X_mul, coeff_derivative]
    push_cast; ring

/-- The terms of a series that was asked for five. -/
theorem full_data {y : Ser K} {F : K⟦X⟧} {n : ℕ} (h : y.Has n F) (hf : y.nonzero = n) {i : ℕ} (hi : i < n) : y.data i = coeff i F := by
  rw [← h.agree i hi, Ser.coeff_ps, if_pos (by omega)]

theorem invBodyG_has {y x : Ser K} {F : K⟦X⟧} (hx : x.Has 5 F) (hf : x.nonzero = 5) (h0 : constantCoeff F ≠ 0) (hl : 5 ≤ y.limit) :
    ∃ y' : Ser K, Runs (invBodyG (numArith K) y x) y' ∧ ∀ i, i < 5 → y'.data i = coeff i F⁻¹ := by
  have hd : x.data 0 = constantCoeff F := hx.data_zero (by omega)
  set a := (constantCoeff F)⁻¹ with ha
  let r : Ser K := ⟨5, 5, 1, fun i => if (5 : ℤ) ≠ 0 ∧ i = 0 then a else (newG (numArith K) 5).data i⟩
  have hr : (newG (numArith K) 5).setScalar 5 a = .ok r := rfl
  have hr1 : r.Has 5 (C a) := by
    refine ⟨⟨⟨by simp [r], by simp [r], by simp [r]⟩, rfl, fun i hi => ?_⟩, fun _ => le_rfl⟩
    rw [Ser.coeff_ps, coeff_C]
    rcases Nat.eq_zero_or_pos i with rfl | hi0
    · simp [r]
    · rw [if_neg (by simp only [r]; omega), if_neg (by omega)]
  have l5 : (newG (numArith K) 5).limit = 5 := newG_limit 5
  obtain ⟨rx, e1, l1, hrx, z1⟩ := mulG_has (z := newG (numArith K) 5) (n := 5) hr1 hx (by omega) (by rw [l5]; rfl) InPlace.none
  have f1 : rx.nonzero = 5 := by rw [z1, hf]; rfl
  have hc : constantCoeff (C a * F) = 1 := by
    rw [map_mul]; simp only [constantCoeff_C]; rw [ha, inv_mul_cancel₀ h0]
  have hv : rx.view.Has 5 (C a * F) :=
    ⟨⟨⟨hrx.wf.nonneg, hrx.wf.le_known, le_rfl⟩, hrx.known, hrx.agree⟩, hrx.pos⟩
  obtain ⟨i, e2, l2, hi, z2⟩ := invG_has (y := newG (numArith K) 5) hv (fun _ => hc) (by rw [l5]; rfl) le_rfl
  have f2 : i.nonzero = 5 := z2 f1
  obtain ⟨y', e3, l3, hy, z3⟩ := mulG_has (z := y) (n := 5) hr1 hi (by omega) hl InPlace.none
  have f3 : y'.nonzero = 5 := by rw [z3, f2]; rfl
  refine ⟨y', ?_, fun i hi => ?_⟩
  · refine Runs.bind (a := a) ?_ (Runs.bind (Runs.ofRes hr) (Runs.bind e1 (Runs.bind e2 e3)))
    rw [hd]
    exact Runs.pure _
  · rw [full_data hy f3 hi]
    congr 1
    refine (PowerSeries.eq_inv_iff_mul_eq_one h0).mpr ?_
    have := PowerSeries.mul_inv_cancel (C a * F) (by rw [hc]; exact one_ne_zero)
    linear_combination this

variable [CharZero K]

theorem logG_has {y x : Ser K} {n : ℕ} {F : K⟦X⟧} (hx : x.Has n F)
    (hF : constantCoeff F = 1) (hn : 0 < n) (hl : n ≤ y.limit) (h5 : n ≤ 5) :
    ∃ y' : Ser K, Runs (logG (numArith K) y x) y' ∧ y'.limit = y.limit ∧ y'.Has n (L F) := by
  have hn' : ¬ ((n : ℤ) = 0) := by omega
  have hp := hx.pos hn
  obtain ⟨dx, e1, l1, hdx⟩ := derivativeG_has (y := newG (numArith K) n) hx (by rw [newG_limit])
  obtain ⟨y1, e2, l2, hy1⟩ := divG_has (y := y) (n := n) hdx hx (by omega) (fun _ => hF) hl h5
  have hd : Ser.dshift 0 F * F⁻¹ = Ser.dshift 0 (L F) := by
    rw [dshift_zeroG, dshift_zeroG, deriv_L hF]; ring
  rw [hd] at hy1
  obtain ⟨y2, e3, l3, hy2⟩ := integralG_has hy1 (constantCoeff_L hF)
  refine ⟨y2, ?_, by omega, hy2⟩
  unfold logG
  simp only [hx.known, if_neg hn']
  exact Runs.bind (Runs.assert (by omega)) (Runs.bind e1 (Runs.bind e2 e3))

theorem expG_has {y x : Ser K} {n : ℕ} {F : K⟦X⟧} (hx : x.Is n F) (hF : constantCoeff F = 0) (hn : 0 < n) (hl : n ≤ y.limit)
    (h5 : n ≤ 5) : ∃ y' : Ser K, Runs (expG (numArith K) y x) y' ∧ y'.limit = y.limit ∧ y'.Has n (E F) ∧
      (x.nonzero = n → y'.nonzero = n) := by
  have hn' : ¬ ((n : ℤ) = 0) := by omega
  have hsc := Ser.setCounts_ok y (k := 1) (z := 1) (by omega) (by omega) (by omega)
  have hb : Runs (expBaseG (numArith K) y) ⟨y.limit, 1, 1, Function.update y.data 0 ((1 : ℤ) : K)⟩ :=
    Runs.bind (Runs.ofRes hsc) (Runs.pure _)
  set y0 : Ser K := ⟨y.limit, 1, 1, Function.update y.data 0 ((1 : ℤ) : K)⟩ with hy0
  have hb1 : y0.Has 1 (E F) := by
    refine ⟨⟨⟨by simp [hy0], by simp [hy0], by simp only [hy0]; omega⟩, rfl, fun i hi => ?_⟩, fun _ => le_rfl⟩
    obtain rfl : i = 0 := by omega
    rw [Ser.coeff_ps, if_pos (by simp [hy0]), coeff_zero_eq_constantCoeff_apply, constantCoeff_E hF, hy0]
    simp
  let P : ℕ → Ser K × Ser K → Prop := fun m st =>
    st.1.limit = y.limit ∧ st.2.limit = n ∧ st.1.Has m (E F) ∧ (x.nonzero = n → st.1.nonzero = m)
  have hstep : ∀ (m0 m : ℕ) (r : Bool) (st : Ser K × Ser K), 0 < m0 → m0 ≤ m → m ≤ 2 * m0 → m ≤ n →
      P (if r then m else m0) st → ∃ st', Runs (expStepG (numArith K) x m0 m r st) st' ∧ P m st' := by
    rintro m0 m r ⟨y, dy⟩ h0 hm hm2 hmn ⟨hyl, hdl, hy, hyf⟩
    simp only at hyl hdl hy
    obtain ⟨y1, e1, l1, z1, G, hy1, hG⟩ := setKnown_newtonG hy h0 hm
    have hG1 : constantCoeff G = 1 := by rw [hG.constantCoeff_eq h0, constantCoeff_E hF]
    obtain ⟨d1, e2, l2, hd1⟩ := logG_has (y := dy) hy1 hG1 (by omega) (by omega) (by omega)
    obtain ⟨d2, e3, l3, hd2, z3⟩ := highSubG_has (s := 0) (n := m) hd1 hx (by omega) (by omega)
    rw [pow_zero, one_mul] at hd2
    have hr : Agree m0 (L G - F) 0 := by
      have h1 := (L_agree hG1 (constantCoeff_E hF) hG).sub (Agree.rfl' (F := F))
      rw [L_E hF, sub_self] at h1
      exact h1
    obtain ⟨d3, e4, l4, hd3, z4⟩ := mulG_has (al := .right) (z := d2) (n := m) hy1 hd2 (by omega) (by omega)
      ⟨fun h => (nomatch h), fun _ => ⟨rfl, m0, by omega, hr, fun _ => hG1⟩⟩
    have hr' : Agree m0 (G * (L G - F)) 0 := by
      rw [mul_comm]; exact hr.mul_zero_left G
    obtain ⟨y2, e5, l5, hy2, z5⟩ := newtonSubG_has hy1 hd3 hm hr' (by omega)
    refine ⟨(y2, d3), ?_, by simp only; omega, by simp only; omega, hy2.congr ?_, ?_⟩
    · exact Runs.bind (Runs.ofRes e1) (Runs.bind e2 (Runs.bind e3 (Runs.bind e4 (Runs.bind e5 (Runs.pure _)))))
    · have hD : Agree m0 (F - L G) 0 := by
        have := hr.neg; rwa [neg_sub, neg_zero] at this
      have hE : E F = G * E (F - L G) := by
        have h1 := E_add (F := L G) (G := F - L G) (constantCoeff_L hG1)
          (by rw [map_sub, hF, constantCoeff_L hG1, sub_zero])
        rw [E_L hG1, add_sub_cancel] at h1
        exact h1
      have h2 := ((Agree.rfl' (F := G)).mul (E_sub_one_agree h0 hD)).mono hm2
      rw [hE]
      refine (Agree.of_eq ?_).trans h2.symm
      ring
    · intro hfull
      have p1 := hy1.pos (by omega)
      have f2 : d2.nonzero = m := by
        rw [z3, if_pos (by omega)]; omega
      have f3 : d3.nonzero = m := by rw [z4]; unfold relu; omega
      exact newton_fullG z1 z5 hd3.known f3 hm (hyf hfull)
  obtain ⟨st, es, hs1, hs2, hs3, hs4⟩ := newtonG_rule (expStepG (numArith K) x) n P hstep 1
    (y0, newG (numArith K) n) hn (fun _ => by omega) ⟨rfl, newG_limit n, hb1, fun _ => rfl⟩
  refine ⟨st.1, ?_, hs1, hs3, hs4⟩
  unfold expG
  simp only [hx.known, if_neg hn']
  exact Runs.bind hb (Runs.bind es (Runs.pure _))

end Mandelbrot.Sym
