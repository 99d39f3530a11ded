import Verif.IO.Npy
import Verif.IO.TextLemmas
import Verif.Spec.Npy

/-!
# `.npy` files (C35)
-/

namespace Mandelbrot.Props

open _root_.Mandelbrot.IO

theorem toNat_byte {n : ℕ} (h : n < 256) : (Char.ofNat n).toNat = n := by
  have hv : n.isValidChar := Or.inl (by omega)
  rw [Char.ofNat, dif_pos hv]
  rfl

theorem padLoop_eq (h : Str) : padLoop h = h ++ List.replicate (15 - h.length % 16) ' ' := by
  induction h using padLoop.induct with
  | case1 h h1 ih =>
    rw [padLoop, if_pos h1, ih, List.append_assoc]
    rw [show (15 : ℕ) = 2 ^ 4 - 1 from rfl, Nat.and_two_pow_sub_one_eq_mod] at h1
    congr 1
    rw [show [' '] = List.replicate 1 ' ' from rfl, List.replicate_append_replicate, List.length_append, List.length_replicate]
    congr 1
    omega
  | case2 h h1 =>
    rw [padLoop, if_neg h1]
    rw [show (15 : ℕ) = 2 ^ 4 - 1 from rfl, Nat.and_two_pow_sub_one_eq_mod] at h1
    rw [show 15 - h.length % 16 = 0 by omega]
    simp

/-- The dictionary before padding. -/
def npyDict (shape : List ℤ) : Str :=
  kw "{'descr': '<f8', 'fortran_order': False, 'shape': (" ++ (shape.flatMap fun n => showInt n ++ kw ",") ++ kw "), }"

/-- The dictionary with padding. -/
def npyPadded (shape : List ℤ) : Str :=
  npyDict shape ++ List.replicate (15 - (10 + (npyDict shape).length) % 16) ' ' ++ ['\n']

theorem numpyHeader_eq (shape : List ℤ) : numpyHeader shape =
    Char.ofNat 0x93 :: kw "NUMPY" ++ [Char.ofNat 1, Char.ofNat 0] ++ bytes16 (npyPadded shape).length ++ npyPadded shape := by
  have h : numpyHeader shape = (let header := padLoop (Char.ofNat 0x93 :: kw "NUMPY" ++ [Char.ofNat 1, Char.ofNat 0] ++ kw "??" ++
      npyDict shape) ++ ['\n']; header.take 8 ++ bytes16 (header.length - 10) ++ header.drop 10) := by
    rw [numpyHeader, npyDict]
    simp only [List.append_assoc]
  have h2 : padLoop (Char.ofNat 0x93 :: kw "NUMPY" ++ [Char.ofNat 1, Char.ofNat 0] ++ kw "??" ++ npyDict shape) ++ ['\n'] =
      (Char.ofNat 0x93 :: kw "NUMPY" ++ [Char.ofNat 1, Char.ofNat 0]) ++ kw "??" ++ npyPadded shape := by
    rw [padLoop_eq, npyPadded, List.length_append,
      show (Char.ofNat 0x93 :: kw "NUMPY" ++ [Char.ofNat 1, Char.ofNat 0] ++ kw "??").length = 10 by decide]
    simp only [List.append_assoc]
  rw [h, h2]
  simp only []
  rw [List.drop_left' (by decide), List.length_append,
    show (Char.ofNat 0x93 :: kw "NUMPY" ++ [Char.ofNat 1, Char.ofNat 0] ++ kw "??").length = 10 by decide,
    Nat.add_sub_cancel_left, List.append_assoc _ (kw "??"), List.take_left' (by decide)]

theorem npyPadded_length (shape : List ℤ) : (10 + (npyPadded shape).length) % 16 = 0 := by
  rw [npyPadded, List.length_append, List.length_append, List.length_replicate, List.length_singleton]
  omega

/-- C35.  The length of a header is a multiple of 16, the bytes 8 and 9 hold the number of bytes that follow them, and the last
byte is a newline. -/
theorem C35_header (shape : List ℤ) (hfit : (numpyHeader shape).length < 2 ^ 16) :
    (numpyHeader shape).length % 16 = 0 ∧
    (∃ lo hi : Char, (numpyHeader shape)[8]? = some lo ∧ (numpyHeader shape)[9]? = some hi ∧
      lo.toNat < 256 ∧ hi.toNat < 256 ∧ 10 + (lo.toNat + 256 * hi.toNat) = (numpyHeader shape).length) ∧
    (numpyHeader shape).getLast? = some '\n' := by
  have hb := @toNat_byte
  have hlen : (numpyHeader shape).length = 10 + (npyPadded shape).length := by
    rw [numpyHeader_eq, List.length_append, List.length_append, bytes16]
    simp only [List.length_cons, List.length_nil, List.length_append, show (kw "NUMPY").length = 5 by decide]
  have hp := npyPadded_length shape
  refine ⟨by omega, ?_, ?_⟩
  · refine ⟨_, _, by rw [numpyHeader_eq]; rfl, by rw [numpyHeader_eq]; rfl, ?_, ?_, ?_⟩
    · rw [hb (by omega)]; omega
    · rw [hb (by omega)]; omega
    · rw [hb (by omega), hb (by omega)]; omega
  · rw [numpyHeader_eq, npyPadded, ← List.append_assoc, List.getLast?_append]
    rfl

theorem isDigit_showNat (n : ℕ) : ∀ c ∈ showNat n, Spec.isDigit c = true := by
  intro c hc
  obtain ⟨e, he, rfl⟩ := showNat_digits n c hc
  interval_cases e <;> decide

theorem decimalValue_showNat (n : ℕ) : Spec.decimalValue (showNat n) = n := by
  have hb : ∀ {n}, n < 10 → (Char.ofNat (48 + n)).toNat = 48 + n := fun h => toNat_byte (by omega)
  induction n using Nat.strong_induction_on with
  | _ n ih =>
    rw [showNat]
    split_ifs with h
    · simp only [Spec.decimalValue, List.foldl_cons, List.foldl_nil, hb h]; omega
    · have := ih (n / 10) (by omega)
      rw [Spec.decimalValue] at this ⊢
      rw [List.foldl_append, this, List.foldl_cons, List.foldl_nil, hb (by omega)]
      omega

theorem npyShape_step (fuel n : ℕ) (rest : Str) : Spec.npyShape (fuel + 1) (showNat n ++ ',' :: rest) =
    (Spec.npyShape fuel rest).map fun r => (n :: r.1, r.2) := by
  obtain ⟨d, l, e, hd, -, -⟩ := showNat_spec n
  have h1 : (showNat n ++ ',' :: rest).takeWhile Spec.isDigit = showNat n := by
    rw [List.takeWhile_append_of_pos (isDigit_showNat n), List.takeWhile_cons_of_neg (by decide), List.append_nil]
  have h2 : (showNat n ++ ',' :: rest).dropWhile Spec.isDigit = ',' :: rest := by
    rw [List.dropWhile_append_of_pos (isDigit_showNat n), List.dropWhile_cons_of_neg (by decide)]
  have h3 : showNat n ≠ [] := by rw [e]; simp
  have h4 : ∀ t, showNat n ++ ',' :: rest ≠ ')' :: t := by
    intro t ht
    rw [e] at ht
    have := (List.cons.inj ht).1
    revert this
    interval_cases d <;> decide
  rw [Spec.npyShape]
  · simp only [h1, h2, if_neg h3, decimalValue_showNat]
  · exact fun t => h4 t

theorem npyShape_eq (shape : List ℕ) (fuel : ℕ) (h : shape.length < fuel) (rest : Str) :
    Spec.npyShape fuel ((shape.flatMap fun n => showNat n ++ kw ",") ++ ')' :: rest) = some (shape, rest) := by
  induction shape generalizing fuel with
  | nil =>
    obtain ⟨f, rfl⟩ := Nat.exists_eq_add_of_lt h
    rw [List.flatMap_nil, List.nil_append]
    simp [Spec.npyShape]
  | cons n shape ih =>
    obtain ⟨f, rfl⟩ : ∃ f, fuel = f + 1 := ⟨fuel - 1, by omega⟩
    rw [List.flatMap_cons, List.append_assoc, List.append_assoc,
      show ∀ t, kw "," ++ t = ',' :: t from fun _ => rfl, npyShape_step, ih f (by simpa using h)]
    rfl

theorem flatMap_showInt (shape : List ℕ) : ((shape.map (fun n : ℕ => (n : ℤ))).flatMap fun n => showInt n ++ kw ",") =
    shape.flatMap fun n => showNat n ++ kw "," := by
  rw [List.flatMap_map]
  simp only [showInt_nat]

theorem afterPrefix_append (p s : Str) : Spec.afterPrefix p (p ++ s) = some s := by
  rw [Spec.afterPrefix, if_pos (by rw [List.isPrefixOf_iff_prefix]; exact ⟨s, rfl⟩), List.drop_left]

theorem npyHeader_eq (shape : List ℕ) : Spec.npyHeader (npyPadded (shape.map (fun n : ℕ => (n : ℤ)))) = some shape := by
  set k := 15 - (10 + (npyDict (shape.map (fun n : ℕ => (n : ℤ)))).length) % 16 with hk
  have h1 : npyPadded (shape.map (fun n : ℕ => (n : ℤ))) = "{'descr': '<f8', 'fortran_order': False, 'shape': (".toList ++
      ((shape.flatMap fun n => showNat n ++ kw ",") ++ ')' :: (", }".toList ++ (List.replicate k ' ' ++ ['\n']))) := by
    rw [npyPadded, ← hk, npyDict, flatMap_showInt]
    simp only [List.append_assoc]
    rfl
  have h2 : ∀ s : Str, shape.length < ((shape.flatMap fun n => showNat n ++ kw ",") ++ ')' :: s).length := by
    intro s
    have : shape.length ≤ (shape.flatMap fun n => showNat n ++ kw ",").length := by
      clear h1 hk k
      induction shape with
      | nil => simp
      | cons n shape ih =>
        rw [List.flatMap_cons, List.length_append, List.length_append, List.length_cons,
          show (kw ",").length = 1 by decide]
        omega
    rw [List.length_append, List.length_cons]
    omega
  have h3 : (List.replicate k ' ' ++ ['\n']).dropWhile (· = ' ') = ['\n'] := by
    rw [List.dropWhile_append_of_pos (by simp)]
    rfl
  rw [Spec.npyHeader, h1, afterPrefix_append]
  simp only [Option.bind_eq_bind, Option.bind_some]
  rw [npyShape_eq shape _ (h2 _)]
  simp only [Option.bind_some]
  rw [afterPrefix_append]
  simp only [Option.bind_some]
  rw [if_pos h3]

theorem readNpy_eq (shape : List ℤ) (hfit : (numpyHeader shape).length < 2 ^ 16) (data : Str) :
    Spec.readNpy (numpyHeader shape ++ data) = (Spec.npyHeader (npyPadded shape)).map fun s => (s, data) := by
  have hb := @toNat_byte
  have hp := npyPadded_length shape
  have hlen : (numpyHeader shape).length = 10 + (npyPadded shape).length := by
    rw [numpyHeader_eq, List.length_append, List.length_append, bytes16]
    simp only [List.length_cons, List.length_nil, List.length_append, show (kw "NUMPY").length = 5 by decide]
  set P := npyPadded shape with hP
  rw [numpyHeader_eq, ← hP, bytes16]
  rw [Spec.readNpy, List.append_assoc, List.append_assoc,
    show Char.ofNat 0x93 :: kw "NUMPY" ++ [Char.ofNat 1, Char.ofNat 0] =
      Char.ofNat 0x93 :: "NUMPY".toList ++ [Char.ofNat 1, Char.ofNat 0] from rfl, afterPrefix_append]
  simp only [Option.bind_eq_bind, Option.bind_some, List.cons_append, List.nil_append]
  rw [hb (by omega), hb (by omega), show P.length % 2 ^ 16 % 256 + 256 * (P.length % 2 ^ 16 / 256) = P.length by omega,
    if_neg (by rw [List.length_append]; omega), List.take_left, List.drop_left]

/-- C35.  A reader of the format finds the shape and all that follows the header. -/
theorem C35_read_back (shape : List ℕ) (hfit : (numpyHeader (shape.map (fun n : ℕ => (n : ℤ)))).length < 2 ^ 16) (data : Str) :
    Spec.readNpy (numpyHeader (shape.map (fun n : ℕ => (n : ℤ))) ++ data) = some (shape, data) := by
  rw [readNpy_eq _ hfit, npyHeader_eq]
  rfl

theorem showNat_length (m n : ℕ) (h : n < 10 ^ (m + 1)) : (showNat n).length ≤ m + 1 := by
  induction m generalizing n with
  | zero => rw [showNat, if_pos (by omega)]; simp
  | succ m ih =>
    rw [showNat]
    split_ifs with h1
    · simp
    · rw [List.length_append, List.length_singleton]
      have := ih (n / 10) (by rw [Nat.div_lt_iff_lt_mul (by omega), ← pow_succ]; exact h)
      omega

/-- C35.  `write_series_npy` wants a name ending in `.npy`.  The file then has a header as above and one item for each nonzero
coefficient: a reader finds the shape `(nonzero)`, or `(nonzero, 2)` for expansions, and the coefficients in order. -/
theorem C35_file {K : Type} {encode : K → Str} {parts : ℕ} (henc : ∀ a, (encode a).length = 8 * parts) (path : Str) {x : Ser K} {n : ℕ} (hn : x.nonzero = n) (hfit : n < 2 ^ 31) :
    (¬kw ".npy" <:+ path → writeNpy encode parts path x = .error .assertion) ∧
    (kw ".npy" <:+ path → ∃ file data, writeNpy encode parts path x = .ok file ∧
      Spec.readNpy file = some (n :: if parts = 2 then [2] else [], data) ∧ data.length = 8 * parts * n ∧
      (∀ i < n, (data.drop (8 * parts * i)).take (8 * parts) = encode (x.data i)) ∧
      file.length = (numpyHeader ((n : ℤ) :: if parts = 2 then [2] else [])).length + 8 * parts * n ∧
      (numpyHeader ((n : ℤ) :: if parts = 2 then [2] else [])).length ≤ 96) := by
  constructor
  · intro h
    rw [writeNpy, slowAssert_false h]; rfl
  · intro h
    have h32 : toInt32 x.nonzero = n := by rw [hn, toInt32]; omega
    set shape : List ℕ := n :: if parts = 2 then [2] else [] with hshape
    have hs : shape.map (fun n : ℕ => (n : ℤ)) = (n : ℤ) :: if parts = 2 then [2] else [] := by
      rw [hshape]; split_ifs <;> rfl
    have hl1 : (showNat n).length ≤ 10 := showNat_length 9 n (by omega)
    have hlen : (numpyHeader ((n : ℤ) :: if parts = 2 then [2] else [])).length ≤ 96 := by
      have hd : (npyDict ((n : ℤ) :: if parts = 2 then [2] else [])).length ≤ 71 := by
        rw [npyDict, List.flatMap_cons, showInt_nat]
        simp only [List.length_append]
        have h2 : ((if parts = 2 then [2] else [] : List ℤ).flatMap fun n => showInt n ++ kw ",").length ≤ 2 := by
          split_ifs
          · rw [List.flatMap_singleton, show (2 : ℤ) = (2 : ℕ) from rfl, showInt_nat, showNat, if_pos (by omega)]; decide
          · simp
        have h3 : (kw "{'descr': '<f8', 'fortran_order': False, 'shape': (").length = 51 := by decide
        have h4 : (kw "), }").length = 4 := by decide
        have h5 : (kw ",").length = 1 := by decide
        omega
      rw [numpyHeader_eq, List.length_append, List.length_append, bytes16]
      simp only [List.length_cons, List.length_nil, List.length_append, show (kw "NUMPY").length = 5 by decide]
      have := npyPadded_length ((n : ℤ) :: if parts = 2 then [2] else [])
      have h6 : (npyPadded ((n : ℤ) :: if parts = 2 then [2] else [])).length ≤ 71 + 16 := by
        rw [npyPadded, List.length_append, List.length_append, List.length_replicate, List.length_singleton]
        omega
      omega
    have hdata : ∀ m, ((List.range m).flatMap fun i => encode (x.data i)).length = 8 * parts * m := by
      intro m
      induction m with
      | zero => rfl
      | succ m ih => rw [List.range_succ, List.flatMap_append, List.length_append, ih]; simp [henc]; ring
    refine ⟨numpyHeader ((n : ℤ) :: if parts = 2 then [2] else []) ++ (List.range n).flatMap fun i => encode (x.data i),
      (List.range n).flatMap fun i => encode (x.data i), ?_, ?_, hdata n, ?_, ?_, hlen⟩
    · rw [writeNpy, slowAssert_true h, bok, pok]
      rw [h32, hn, Int.toNat_natCast]
    · rw [← hs]
      exact C35_read_back shape (by rw [hs]; omega) _
    · intro i hi
      have hsplit : List.range n = List.range i ++ i :: (List.range (n - i - 1)).map (i + 1 + ·) := by
        conv_lhs => rw [show n = i + (1 + (n - i - 1)) by omega]
        rw [List.range_add, List.range_add]
        simp [Function.comp_def, Nat.add_assoc]
      rw [hsplit, List.flatMap_append, List.flatMap_cons, List.drop_left' (hdata i), List.take_left' (henc _)]
    · rw [List.length_append, hdata]

/-- A series of doubles `0, 1, ..., 299` (bytes are not the real encoding, only their number matters). -/
example : ∃ file data, writeNpy (fun _ : ℕ => List.replicate 8 'x') 1 (kw "a.npy") ⟨300, 300, 300, fun i => i⟩ = .ok file ∧
    Spec.readNpy file = some ([300], data) ∧ data.length = 2400 := by
  obtain ⟨file, data, h1, h2, h3, -⟩ := (C35_file (encode := fun _ : ℕ => List.replicate 8 'x') (parts := 1)
    (by simp) (kw "a.npy") (x := ⟨300, 300, 300, fun i => i⟩) (n := 300) rfl (by norm_num)).2 ⟨kw "a", rfl⟩
  exact ⟨file, data, h1, h2, h3⟩

/-- C35.  From `2^31` coefficients on (and below `2^32`) the number in the header is negative and a reader refuses the file. -/
theorem C35_overflow {K : Type} (encode : K → Str) {path : Str} (hpath : kw ".npy" <:+ path) {x : Ser K}
    (h1 : 2 ^ 31 ≤ x.nonzero) (h2 : x.nonzero < 2 ^ 32) :
    ∃ file, writeNpy encode 1 path x = .ok file ∧ Spec.readNpy file = none := by
  refine ⟨_, by rw [writeNpy, slowAssert_true hpath, bok, pok], ?_⟩
  have h32 : toInt32 x.nonzero < 0 ∧ (toInt32 x.nonzero).natAbs < 10 ^ 10 := by rw [toInt32]; omega
  obtain ⟨h3, h4⟩ := h32
  set i := toInt32 x.nonzero
  have hl1 : (showInt i).length ≤ 11 := by
    rw [showInt, if_pos h3, List.length_cons]
    have := showNat_length 9 i.natAbs h4
    omega
  rw [if_neg (by omega)]
  have hd : (npyDict [i]).length ≤ 100 := by
    rw [npyDict, List.flatMap_singleton]
    simp only [List.length_append]
    have h3 : (kw "{'descr': '<f8', 'fortran_order': False, 'shape': (").length = 51 := by decide
    have h4 : (kw "), }").length = 4 := by decide
    have h5 : (kw ",").length = 1 := by decide
    omega
  have h6 : (npyPadded [i]).length ≤ 100 + 16 := by
    rw [npyPadded, List.length_append, List.length_append, List.length_replicate, List.length_singleton]
    omega
  have hlen : (numpyHeader [i]).length < 2 ^ 16 := by
    rw [numpyHeader_eq, List.length_append, List.length_append, bytes16]
    simp only [List.length_cons, List.length_nil, List.length_append, show (kw "NUMPY").length = 5 by decide]
    omega
  rw [readNpy_eq _ hlen]
  have hnone : ∀ fuel (t : Str), Spec.npyShape fuel ('-' :: t) = none := by
    intro fuel t
    cases fuel with
    | zero => rfl
    | succ f => rw [Spec.npyShape]; simp [Spec.isDigit]; simp
  have : Spec.npyHeader (npyPadded [i]) = none := by
    rw [Spec.npyHeader, npyPadded, npyDict, List.flatMap_singleton, showInt, if_pos h3]
    simp only [List.append_assoc]
    rw [show kw "{'descr': '<f8', 'fortran_order': False, 'shape': (" =
      "{'descr': '<f8', 'fortran_order': False, 'shape': (".toList from rfl, afterPrefix_append]
    simp only [Option.bind_eq_bind, Option.bind_some, List.cons_append, hnone, Option.bind_none]
  rw [this]
  rfl

example : ∃ file, writeNpy (fun _ : ℕ => List.replicate 8 'x') 1 (kw "a.npy") ⟨2 ^ 31, 2 ^ 31, 2 ^ 31, fun i => i⟩ = .ok file ∧
    Spec.readNpy file = none :=
  C35_overflow _ ⟨kw "a", rfl⟩ (by norm_num) (by norm_num)

end Mandelbrot.Props
