import Verif.Runtime.CacheLemmas
import Verif.FFT.Cis

/-!
# Reading twiddles through the pointers handed out by the caches
-/

namespace Mandelbrot.Runtime

open FFT (cis)

/-- Entry `i` of the array at an address. -/
def St.entry (st : St ℂ) (a : ℕ) (i : ℤ) : Res ℂ := do
  let b ← st.read a
  if 0 ≤ i ∧ i < b.size then return b.val i.toNat else .error .ub

/-- /repo/fft.cc 98-112 `TwiddleSlice::operator()`. -/
def TwiddleSlice.at (t : TwiddleSlice) (st : St ℂ) (j : ℤ) : Res ℂ := do
  let l := FFT.lookup t.m j
  let z ← st.entry t.ptr l.idx
  return l.fix z

/-- /repo/fft.cc 119-123 `BigTwiddleSlice::operator()`. -/
def BigSlice.at (t : BigSlice) (st : St ℂ) (j : ℤ) : Res ℂ := do
  let u ← t.tw.at st (j / 4)
  let v ← st.entry t.few (t.off + j % 4)
  return u * v

/-- /repo/fft.cc 35-41 and 74-76: what the tables are filled with, taken as exact (C48 is about the rounding). -/
noncomputable def exactEnv : Env ℂ where
  tab s i := cis i (2 * 2 ^ s)
  few i := cis ((i % jLimit : ℕ) : ℤ) (2 * 2 ^ (i / jLimit))

theorem entry_ok {st : St ℂ} {a n : ℕ} {f : ℕ → ℂ} (h : st.live a = some ⟨n, f⟩) {i : ℤ} (h0 : 0 ≤ i) (h1 : i < n) :
    st.entry a i = .ok (f i.toNat) := by
  rw [St.entry, read_ok h, bok]
  simp only [h0, h1, and_self, if_true, pok]

theorem slice_at {st : St ℂ} {a s : ℕ} (h : st.live a = some ⟨2 ^ s / 4 + 1, exactEnv.tab s⟩) (j : ℤ) :
    (TwiddleSlice.mk a (2 ^ s)).at st j = .ok (cis j (2 * 2 ^ s)) := by
  have hb := FFT.lookup_idx s j
  have hv := FFT.slice_eq s j
  simp only [FFT.slice, FFT.twiddleTable] at hv
  have hsz : FFT.twiddleTableSize s = ((2 ^ s / 4 + 1 : ℕ) : ℤ) := by
    rw [FFT.twiddleTableSize]; push_cast; rfl
  rw [hsz] at hb
  have e := entry_ok h hb.1 hb.2
  simp only [TwiddleSlice.at, Nat.cast_pow, Nat.cast_ofNat, e, bok, pok, exactEnv]
  rw [Int.toNat_of_nonneg hb.1, hv]

theorem bigSlice_at {st : St ℂ} {a b s : ℕ} (h2 : 2 ≤ s) (hs : s < sLimit)
    (h : st.live a = some ⟨2 ^ (s - 2) / 4 + 1, exactEnv.tab (s - 2)⟩)
    (hf : st.live b = some ⟨sLimit * jLimit, exactEnv.few⟩) (j : ℤ) :
    (BigSlice.mk ⟨a, 2 ^ (s - 2)⟩ b (jLimit * s)).at st j = .ok (cis j (2 * 2 ^ s)) := by
  have h3 := Int.emod_nonneg j (show (4 : ℤ) ≠ 0 by norm_num)
  have h4 := Int.emod_lt_of_pos j (show (0 : ℤ) < 4 by norm_num)
  have hoff : (((jLimit * s : ℕ) : ℤ) + j % 4) = ((4 * s + (j % 4).toNat : ℕ) : ℤ) := by
    simp only [jLimit]; push_cast; rw [Int.toNat_of_nonneg h3]
  have hlt : (j % 4).toNat < 4 := by omega
  have e := entry_ok hf (i := ((jLimit * s : ℕ) : ℤ) + j % 4) (by rw [hoff]; positivity)
    (by rw [hoff]; simp only [sLimit, jLimit] at hs ⊢; norm_cast; omega)
  rw [hoff, Int.toNat_natCast] at e
  simp only [BigSlice.at, slice_at h, bok]
  rw [hoff, e, bok, pok]
  congr 1
  have hm : (4 * s + (j % 4).toNat) % jLimit = (j % 4).toNat := by simp only [jLimit]; omega
  have hd : (4 * s + (j % 4).toNat) / jLimit = s := by simp only [jLimit]; omega
  simp only [exactEnv, hm, hd]
  rw [Int.toNat_of_nonneg h3]
  have hp : 2 * 2 ^ s = 2 * 2 ^ (s - 2) * 4 := by
    obtain ⟨r, rfl⟩ := Nat.exists_eq_add_of_le' h2
    rw [Nat.add_sub_cancel, pow_add]; ring
  rw [hp, ← FFT.cis_cancel (j / 4) (n := 2 * 2 ^ (s - 2)) (k := 4) (by norm_num), ← FFT.cis_add]
  congr 1
  push_cast
  omega

end Mandelbrot.Runtime
