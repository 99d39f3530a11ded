import Verif.Sig.Search

/-!
# The search for the fields, evaluated

Certificates of primality by Lucas' criterion for the primes that are 7 mod 8 and are met by the search, then the search itself.
-/

namespace Mandelbrot.Sig

theorem prime_4817 : Nat.Prime 4817 := by
  refine lucas 3 [2, 2, 2, 2, 7, 43] (by norm_num) (by norm_num) ?_ (by norm_num) (by decide +kernel) (by decide +kernel)
  simp only [List.mem_cons, List.not_mem_nil, or_false, forall_eq_or_imp, forall_eq]
  exact ⟨(by norm_num), (by norm_num), (by norm_num), (by norm_num), (by norm_num), (by norm_num)⟩

theorem prime_1913 : Nat.Prime 1913 := by
  refine lucas 3 [2, 2, 2, 239] (by norm_num) (by norm_num) ?_ (by norm_num) (by decide +kernel) (by decide +kernel)
  simp only [List.mem_cons, List.not_mem_nil, or_false, forall_eq_or_imp, forall_eq]
  exact ⟨(by norm_num), (by norm_num), (by norm_num), (by norm_num)⟩

theorem prime_16561424618041 : Nat.Prime 16561424618041 := by
  refine lucas 22 [2, 2, 2, 3, 5, 17, 881, 1913, 4817] (by norm_num) (by norm_num) ?_ (by norm_num) (by decide +kernel) (by decide +kernel)
  simp only [List.mem_cons, List.not_mem_nil, or_false, forall_eq_or_imp, forall_eq]
  exact ⟨(by norm_num), (by norm_num), (by norm_num), (by norm_num), (by norm_num), (by norm_num), (by norm_num), prime_1913, prime_4817⟩

theorem prime_18446744073709551359 : Nat.Prime 18446744073709551359 := by
  refine lucas 7 [2, 11, 197, 257, 16561424618041] (by norm_num) (by norm_num) ?_ (by norm_num) (by decide +kernel) (by decide +kernel)
  simp only [List.mem_cons, List.not_mem_nil, or_false, forall_eq_or_imp, forall_eq]
  exact ⟨(by norm_num), (by norm_num), (by norm_num), (by norm_num), prime_16561424618041⟩

theorem prime_80747 : Nat.Prime 80747 := by
  refine lucas 2 [2, 47, 859] (by norm_num) (by norm_num) ?_ (by norm_num) (by decide +kernel) (by decide +kernel)
  simp only [List.mem_cons, List.not_mem_nil, or_false, forall_eq_or_imp, forall_eq]
  exact ⟨(by norm_num), (by norm_num), (by norm_num)⟩

theorem prime_233035843 : Nat.Prime 233035843 := by
  refine lucas 3 [2, 3, 13, 37, 80747] (by norm_num) (by norm_num) ?_ (by norm_num) (by decide +kernel) (by decide +kernel)
  simp only [List.mem_cons, List.not_mem_nil, or_false, forall_eq_or_imp, forall_eq]
  exact ⟨(by norm_num), (by norm_num), (by norm_num), (by norm_num), prime_80747⟩

theorem prime_8179 : Nat.Prime 8179 := by
  refine lucas 2 [2, 3, 29, 47] (by norm_num) (by norm_num) ?_ (by norm_num) (by decide +kernel) (by decide +kernel)
  simp only [List.mem_cons, List.not_mem_nil, or_false, forall_eq_or_imp, forall_eq]
  exact ⟨(by norm_num), (by norm_num), (by norm_num), (by norm_num)⟩

theorem prime_1079629 : Nat.Prime 1079629 := by
  refine lucas 6 [2, 2, 3, 11, 8179] (by norm_num) (by norm_num) ?_ (by norm_num) (by decide +kernel) (by decide +kernel)
  simp only [List.mem_cons, List.not_mem_nil, or_false, forall_eq_or_imp, forall_eq]
  exact ⟨(by norm_num), (by norm_num), (by norm_num), (by norm_num), prime_8179⟩

theorem prime_15095535248534821 : Nat.Prime 15095535248534821 := by
  refine lucas 2 [2, 2, 3, 5, 1079629, 233035843] (by norm_num) (by norm_num) ?_ (by norm_num) (by decide +kernel) (by decide +kernel)
  simp only [List.mem_cons, List.not_mem_nil, or_false, forall_eq_or_imp, forall_eq]
  exact ⟨(by norm_num), (by norm_num), (by norm_num), (by norm_num), prime_1079629, prime_233035843⟩

theorem prime_18446744073709551263 : Nat.Prime 18446744073709551263 := by
  refine lucas 5 [2, 13, 47, 15095535248534821] (by norm_num) (by norm_num) ?_ (by norm_num) (by decide +kernel) (by decide +kernel)
  simp only [List.mem_cons, List.not_mem_nil, or_false, forall_eq_or_imp, forall_eq]
  exact ⟨(by norm_num), (by norm_num), (by norm_num), prime_15095535248534821⟩

theorem prime_25264513 : Nat.Prime 25264513 := by
  refine lucas 5 [2, 2, 2, 2, 2, 2, 2, 3, 3, 7, 13, 241] (by norm_num) (by norm_num) ?_ (by norm_num) (by decide +kernel) (by decide +kernel)
  simp only [List.mem_cons, List.not_mem_nil, or_false, forall_eq_or_imp, forall_eq]
  exact ⟨(by norm_num), (by norm_num), (by norm_num), (by norm_num), (by norm_num), (by norm_num), (by norm_num), (by norm_num), (by norm_num), (by norm_num), (by norm_num), (by norm_num)⟩

theorem prime_1939913 : Nat.Prime 1939913 := by
  refine lucas 3 [2, 2, 2, 13, 23, 811] (by norm_num) (by norm_num) ?_ (by norm_num) (by decide +kernel) (by decide +kernel)
  simp only [List.mem_cons, List.not_mem_nil, or_false, forall_eq_or_imp, forall_eq]
  exact ⟨(by norm_num), (by norm_num), (by norm_num), (by norm_num), (by norm_num), (by norm_num)⟩

theorem prime_2646591689197927 : Nat.Prime 2646591689197927 := by
  refine lucas 5 [2, 3, 3, 3, 1939913, 25264513] (by norm_num) (by norm_num) ?_ (by norm_num) (by decide +kernel) (by decide +kernel)
  simp only [List.mem_cons, List.not_mem_nil, or_false, forall_eq_or_imp, forall_eq]
  exact ⟨(by norm_num), (by norm_num), (by norm_num), (by norm_num), prime_1939913, prime_25264513⟩

theorem prime_18446744073709551191 : Nat.Prime 18446744073709551191 := by
  refine lucas 7 [2, 5, 17, 41, 2646591689197927] (by norm_num) (by norm_num) ?_ (by norm_num) (by decide +kernel) (by decide +kernel)
  simp only [List.mem_cons, List.not_mem_nil, or_false, forall_eq_or_imp, forall_eq]
  exact ⟨(by norm_num), (by norm_num), (by norm_num), (by norm_num), prime_2646591689197927⟩

theorem prime_83969 : Nat.Prime 83969 := by
  refine lucas 3 [2, 2, 2, 2, 2, 2, 2, 2, 2, 2, 2, 41] (by norm_num) (by norm_num) ?_ (by norm_num) (by decide +kernel) (by decide +kernel)
  simp only [List.mem_cons, List.not_mem_nil, or_false, forall_eq_or_imp, forall_eq]
  exact ⟨(by norm_num), (by norm_num), (by norm_num), (by norm_num), (by norm_num), (by norm_num), (by norm_num), (by norm_num), (by norm_num), (by norm_num), (by norm_num), (by norm_num)⟩

theorem prime_1663 : Nat.Prime 1663 := by
  refine lucas 3 [2, 3, 277] (by norm_num) (by norm_num) ?_ (by norm_num) (by decide +kernel) (by decide +kernel)
  simp only [List.mem_cons, List.not_mem_nil, or_false, forall_eq_or_imp, forall_eq]
  exact ⟨(by norm_num), (by norm_num), (by norm_num)⟩

theorem prime_1486332917869 : Nat.Prime 1486332917869 := by
  refine lucas 10 [2, 2, 3, 887, 1663, 83969] (by norm_num) (by norm_num) ?_ (by norm_num) (by decide +kernel) (by decide +kernel)
  simp only [List.mem_cons, List.not_mem_nil, or_false, forall_eq_or_imp, forall_eq]
  exact ⟨(by norm_num), (by norm_num), (by norm_num), (by norm_num), prime_1663, prime_83969⟩

theorem prime_3727 : Nat.Prime 3727 := by
  refine lucas 3 [2, 3, 3, 3, 3, 23] (by norm_num) (by norm_num) ?_ (by norm_num) (by decide +kernel) (by decide +kernel)
  simp only [List.mem_cons, List.not_mem_nil, or_false, forall_eq_or_imp, forall_eq]
  exact ⟨(by norm_num), (by norm_num), (by norm_num), (by norm_num), (by norm_num), (by norm_num)⟩

theorem prime_18446744073709550791 : Nat.Prime 18446744073709550791 := by
  refine lucas 11 [2, 3, 3, 5, 37, 3727, 1486332917869] (by norm_num) (by norm_num) ?_ (by norm_num) (by decide +kernel) (by decide +kernel)
  simp only [List.mem_cons, List.not_mem_nil, or_false, forall_eq_or_imp, forall_eq]
  exact ⟨(by norm_num), (by norm_num), (by norm_num), (by norm_num), (by norm_num), prime_3727, prime_1486332917869⟩

theorem prime_1483 : Nat.Prime 1483 := by
  refine lucas 2 [2, 3, 13, 19] (by norm_num) (by norm_num) ?_ (by norm_num) (by decide +kernel) (by decide +kernel)
  simp only [List.mem_cons, List.not_mem_nil, or_false, forall_eq_or_imp, forall_eq]
  exact ⟨(by norm_num), (by norm_num), (by norm_num), (by norm_num)⟩

theorem prime_2543 : Nat.Prime 2543 := by
  refine lucas 5 [2, 31, 41] (by norm_num) (by norm_num) ?_ (by norm_num) (by decide +kernel) (by decide +kernel)
  simp only [List.mem_cons, List.not_mem_nil, or_false, forall_eq_or_imp, forall_eq]
  exact ⟨(by norm_num), (by norm_num), (by norm_num)⟩

theorem prime_30517 : Nat.Prime 30517 := by
  refine lucas 2 [2, 2, 3, 2543] (by norm_num) (by norm_num) ?_ (by norm_num) (by decide +kernel) (by decide +kernel)
  simp only [List.mem_cons, List.not_mem_nil, or_false, forall_eq_or_imp, forall_eq]
  exact ⟨(by norm_num), (by norm_num), (by norm_num), prime_2543⟩

theorem prime_1783 : Nat.Prime 1783 := by
  refine lucas 10 [2, 3, 3, 3, 3, 11] (by norm_num) (by norm_num) ?_ (by norm_num) (by decide +kernel) (by decide +kernel)
  simp only [List.mem_cons, List.not_mem_nil, or_false, forall_eq_or_imp, forall_eq]
  exact ⟨(by norm_num), (by norm_num), (by norm_num), (by norm_num), (by norm_num), (by norm_num)⟩

theorem prime_322770862853 : Nat.Prime 322770862853 := by
  refine lucas 2 [2, 2, 1483, 1783, 30517] (by norm_num) (by norm_num) ?_ (by norm_num) (by decide +kernel) (by decide +kernel)
  simp only [List.mem_cons, List.not_mem_nil, or_false, forall_eq_or_imp, forall_eq]
  exact ⟨(by norm_num), (by norm_num), prime_1483, prime_1783, prime_30517⟩

theorem prime_1109 : Nat.Prime 1109 := by
  refine lucas 2 [2, 2, 277] (by norm_num) (by norm_num) ?_ (by norm_num) (by decide +kernel) (by decide +kernel)
  simp only [List.mem_cons, List.not_mem_nil, or_false, forall_eq_or_imp, forall_eq]
  exact ⟨(by norm_num), (by norm_num), (by norm_num)⟩

theorem prime_18446744073709550719 : Nat.Prime 18446744073709550719 := by
  refine lucas 3 [2, 3, 3, 7, 409, 1109, 322770862853] (by norm_num) (by norm_num) ?_ (by norm_num) (by decide +kernel) (by decide +kernel)
  simp only [List.mem_cons, List.not_mem_nil, or_false, forall_eq_or_imp, forall_eq]
  exact ⟨(by norm_num), (by norm_num), (by norm_num), (by norm_num), (by norm_num), prime_1109, prime_322770862853⟩

theorem prime_34613 : Nat.Prime 34613 := by
  refine lucas 2 [2, 2, 17, 509] (by norm_num) (by norm_num) ?_ (by norm_num) (by decide +kernel) (by decide +kernel)
  simp only [List.mem_cons, List.not_mem_nil, or_false, forall_eq_or_imp, forall_eq]
  exact ⟨(by norm_num), (by norm_num), (by norm_num), (by norm_num)⟩

theorem prime_899939 : Nat.Prime 899939 := by
  refine lucas 2 [2, 13, 34613] (by norm_num) (by norm_num) ?_ (by norm_num) (by decide +kernel) (by decide +kernel)
  simp only [List.mem_cons, List.not_mem_nil, or_false, forall_eq_or_imp, forall_eq]
  exact ⟨(by norm_num), (by norm_num), prime_34613⟩

theorem prime_106427 : Nat.Prime 106427 := by
  refine lucas 2 [2, 127, 419] (by norm_num) (by norm_num) ?_ (by norm_num) (by decide +kernel) (by decide +kernel)
  simp only [List.mem_cons, List.not_mem_nil, or_false, forall_eq_or_imp, forall_eq]
  exact ⟨(by norm_num), (by norm_num), (by norm_num)⟩

theorem prime_2554249 : Nat.Prime 2554249 := by
  refine lucas 7 [2, 2, 2, 3, 106427] (by norm_num) (by norm_num) ?_ (by norm_num) (by decide +kernel) (by decide +kernel)
  simp only [List.mem_cons, List.not_mem_nil, or_false, forall_eq_or_imp, forall_eq]
  exact ⟨(by norm_num), (by norm_num), (by norm_num), (by norm_num), prime_106427⟩

theorem prime_8629 : Nat.Prime 8629 := by
  refine lucas 6 [2, 2, 3, 719] (by norm_num) (by norm_num) ?_ (by norm_num) (by decide +kernel) (by decide +kernel)
  simp only [List.mem_cons, List.not_mem_nil, or_false, forall_eq_or_imp, forall_eq]
  exact ⟨(by norm_num), (by norm_num), (by norm_num), (by norm_num)⟩

theorem prime_18446744073709550671 : Nat.Prime 18446744073709550671 := by
  refine lucas 6 [2, 3, 5, 31, 8629, 899939, 2554249] (by norm_num) (by norm_num) ?_ (by norm_num) (by decide +kernel) (by decide +kernel)
  simp only [List.mem_cons, List.not_mem_nil, or_false, forall_eq_or_imp, forall_eq]
  exact ⟨(by norm_num), (by norm_num), (by norm_num), (by norm_num), prime_8629, prime_899939, prime_2554249⟩

theorem prime_3137 : Nat.Prime 3137 := by
  refine lucas 3 [2, 2, 2, 2, 2, 2, 7, 7] (by norm_num) (by norm_num) ?_ (by norm_num) (by decide +kernel) (by decide +kernel)
  simp only [List.mem_cons, List.not_mem_nil, or_false, forall_eq_or_imp, forall_eq]
  exact ⟨(by norm_num), (by norm_num), (by norm_num), (by norm_num), (by norm_num), (by norm_num), (by norm_num), (by norm_num)⟩

theorem prime_7433 : Nat.Prime 7433 := by
  refine lucas 3 [2, 2, 2, 929] (by norm_num) (by norm_num) ?_ (by norm_num) (by decide +kernel) (by decide +kernel)
  simp only [List.mem_cons, List.not_mem_nil, or_false, forall_eq_or_imp, forall_eq]
  exact ⟨(by norm_num), (by norm_num), (by norm_num), (by norm_num)⟩

theorem prime_14867 : Nat.Prime 14867 := by
  refine lucas 2 [2, 7433] (by norm_num) (by norm_num) ?_ (by norm_num) (by decide +kernel) (by decide +kernel)
  simp only [List.mem_cons, List.not_mem_nil, or_false, forall_eq_or_imp, forall_eq]
  exact ⟨(by norm_num), prime_7433⟩

theorem prime_2230051 : Nat.Prime 2230051 := by
  refine lucas 3 [2, 3, 5, 5, 14867] (by norm_num) (by norm_num) ?_ (by norm_num) (by decide +kernel) (by decide +kernel)
  simp only [List.mem_cons, List.not_mem_nil, or_false, forall_eq_or_imp, forall_eq]
  exact ⟨(by norm_num), (by norm_num), (by norm_num), (by norm_num), prime_14867⟩

theorem prime_13380307 : Nat.Prime 13380307 := by
  refine lucas 2 [2, 3, 2230051] (by norm_num) (by norm_num) ?_ (by norm_num) (by decide +kernel) (by decide +kernel)
  simp only [List.mem_cons, List.not_mem_nil, or_false, forall_eq_or_imp, forall_eq]
  exact ⟨(by norm_num), (by norm_num), prime_2230051⟩

theorem prime_1879 : Nat.Prime 1879 := by
  refine lucas 6 [2, 3, 313] (by norm_num) (by norm_num) ?_ (by norm_num) (by decide +kernel) (by decide +kernel)
  simp only [List.mem_cons, List.not_mem_nil, or_false, forall_eq_or_imp, forall_eq]
  exact ⟨(by norm_num), (by norm_num), (by norm_num)⟩

theorem prime_22549 : Nat.Prime 22549 := by
  refine lucas 2 [2, 2, 3, 1879] (by norm_num) (by norm_num) ?_ (by norm_num) (by decide +kernel) (by decide +kernel)
  simp only [List.mem_cons, List.not_mem_nil, or_false, forall_eq_or_imp, forall_eq]
  exact ⟨(by norm_num), (by norm_num), (by norm_num), prime_1879⟩

theorem prime_1949 : Nat.Prime 1949 := by
  refine lucas 2 [2, 2, 487] (by norm_num) (by norm_num) ?_ (by norm_num) (by decide +kernel) (by decide +kernel)
  simp only [List.mem_cons, List.not_mem_nil, or_false, forall_eq_or_imp, forall_eq]
  exact ⟨(by norm_num), (by norm_num), (by norm_num)⟩

theorem prime_18446744073709550591 : Nat.Prime 18446744073709550591 := by
  refine lucas 11 [2, 5, 1949, 3137, 22549, 13380307] (by norm_num) (by norm_num) ?_ (by norm_num) (by decide +kernel) (by decide +kernel)
  simp only [List.mem_cons, List.not_mem_nil, or_false, forall_eq_or_imp, forall_eq]
  exact ⟨(by norm_num), (by norm_num), prime_1949, prime_3137, prime_22549, prime_13380307⟩

theorem prime_1951 : Nat.Prime 1951 := by
  refine lucas 3 [2, 3, 5, 5, 13] (by norm_num) (by norm_num) ?_ (by norm_num) (by decide +kernel) (by decide +kernel)
  simp only [List.mem_cons, List.not_mem_nil, or_false, forall_eq_or_imp, forall_eq]
  exact ⟨(by norm_num), (by norm_num), (by norm_num), (by norm_num), (by norm_num)⟩

theorem prime_265337 : Nat.Prime 265337 := by
  refine lucas 3 [2, 2, 2, 17, 1951] (by norm_num) (by norm_num) ?_ (by norm_num) (by decide +kernel) (by decide +kernel)
  simp only [List.mem_cons, List.not_mem_nil, or_false, forall_eq_or_imp, forall_eq]
  exact ⟨(by norm_num), (by norm_num), (by norm_num), (by norm_num), prime_1951⟩

theorem prime_1801 : Nat.Prime 1801 := by
  refine lucas 11 [2, 2, 2, 3, 3, 5, 5] (by norm_num) (by norm_num) ?_ (by norm_num) (by decide +kernel) (by decide +kernel)
  simp only [List.mem_cons, List.not_mem_nil, or_false, forall_eq_or_imp, forall_eq]
  exact ⟨(by norm_num), (by norm_num), (by norm_num), (by norm_num), (by norm_num), (by norm_num), (by norm_num)⟩

theorem prime_104459 : Nat.Prime 104459 := by
  refine lucas 2 [2, 29, 1801] (by norm_num) (by norm_num) ?_ (by norm_num) (by decide +kernel) (by decide +kernel)
  simp only [List.mem_cons, List.not_mem_nil, or_false, forall_eq_or_imp, forall_eq]
  exact ⟨(by norm_num), (by norm_num), prime_1801⟩

theorem prime_188861873 : Nat.Prime 188861873 := by
  refine lucas 3 [2, 2, 2, 2, 113, 104459] (by norm_num) (by norm_num) ?_ (by norm_num) (by decide +kernel) (by decide +kernel)
  simp only [List.mem_cons, List.not_mem_nil, or_false, forall_eq_or_imp, forall_eq]
  exact ⟨(by norm_num), (by norm_num), (by norm_num), (by norm_num), (by norm_num), prime_104459⟩

theorem prime_18446744073709550111 : Nat.Prime 18446744073709550111 := by
  refine lucas 7 [2, 5, 131, 281, 265337, 188861873] (by norm_num) (by norm_num) ?_ (by norm_num) (by decide +kernel) (by decide +kernel)
  simp only [List.mem_cons, List.not_mem_nil, or_false, forall_eq_or_imp, forall_eq]
  exact ⟨(by norm_num), (by norm_num), (by norm_num), (by norm_num), prime_265337, prime_188861873⟩

theorem prime_8297 : Nat.Prime 8297 := by
  refine lucas 3 [2, 2, 2, 17, 61] (by norm_num) (by norm_num) ?_ (by norm_num) (by decide +kernel) (by decide +kernel)
  simp only [List.mem_cons, List.not_mem_nil, or_false, forall_eq_or_imp, forall_eq]
  exact ⟨(by norm_num), (by norm_num), (by norm_num), (by norm_num), (by norm_num)⟩

theorem prime_1667 : Nat.Prime 1667 := by
  refine lucas 2 [2, 7, 7, 17] (by norm_num) (by norm_num) ?_ (by norm_num) (by decide +kernel) (by decide +kernel)
  simp only [List.mem_cons, List.not_mem_nil, or_false, forall_eq_or_imp, forall_eq]
  exact ⟨(by norm_num), (by norm_num), (by norm_num), (by norm_num)⟩

theorem prime_130027 : Nat.Prime 130027 := by
  refine lucas 2 [2, 3, 13, 1667] (by norm_num) (by norm_num) ?_ (by norm_num) (by decide +kernel) (by decide +kernel)
  simp only [List.mem_cons, List.not_mem_nil, or_false, forall_eq_or_imp, forall_eq]
  exact ⟨(by norm_num), (by norm_num), (by norm_num), prime_1667⟩

theorem prime_1013 : Nat.Prime 1013 := by
  refine lucas 3 [2, 2, 11, 23] (by norm_num) (by norm_num) ?_ (by norm_num) (by decide +kernel) (by decide +kernel)
  simp only [List.mem_cons, List.not_mem_nil, or_false, forall_eq_or_imp, forall_eq]
  exact ⟨(by norm_num), (by norm_num), (by norm_num), (by norm_num)⟩

theorem prime_12157 : Nat.Prime 12157 := by
  refine lucas 2 [2, 2, 3, 1013] (by norm_num) (by norm_num) ?_ (by norm_num) (by decide +kernel) (by decide +kernel)
  simp only [List.mem_cons, List.not_mem_nil, or_false, forall_eq_or_imp, forall_eq]
  exact ⟨(by norm_num), (by norm_num), (by norm_num), prime_1013⟩

theorem prime_2528657 : Nat.Prime 2528657 := by
  refine lucas 3 [2, 2, 2, 2, 13, 12157] (by norm_num) (by norm_num) ?_ (by norm_num) (by decide +kernel) (by decide +kernel)
  simp only [List.mem_cons, List.not_mem_nil, or_false, forall_eq_or_imp, forall_eq]
  exact ⟨(by norm_num), (by norm_num), (by norm_num), (by norm_num), (by norm_num), prime_12157⟩

theorem prime_18446744073709550047 : Nat.Prime 18446744073709550047 := by
  refine lucas 10 [2, 3, 7, 7, 23, 8297, 130027, 2528657] (by norm_num) (by norm_num) ?_ (by norm_num) (by decide +kernel) (by decide +kernel)
  simp only [List.mem_cons, List.not_mem_nil, or_false, forall_eq_or_imp, forall_eq]
  exact ⟨(by norm_num), (by norm_num), (by norm_num), (by norm_num), (by norm_num), prime_8297, prime_130027, prime_2528657⟩

theorem prime_1459 : Nat.Prime 1459 := by
  refine lucas 3 [2, 3, 3, 3, 3, 3, 3] (by norm_num) (by norm_num) ?_ (by norm_num) (by decide +kernel) (by decide +kernel)
  simp only [List.mem_cons, List.not_mem_nil, or_false, forall_eq_or_imp, forall_eq]
  exact ⟨(by norm_num), (by norm_num), (by norm_num), (by norm_num), (by norm_num), (by norm_num), (by norm_num)⟩

theorem prime_5659 : Nat.Prime 5659 := by
  refine lucas 2 [2, 3, 23, 41] (by norm_num) (by norm_num) ?_ (by norm_num) (by decide +kernel) (by decide +kernel)
  simp only [List.mem_cons, List.not_mem_nil, or_false, forall_eq_or_imp, forall_eq]
  exact ⟨(by norm_num), (by norm_num), (by norm_num), (by norm_num)⟩

theorem prime_13740053 : Nat.Prime 13740053 := by
  refine lucas 2 [2, 2, 607, 5659] (by norm_num) (by norm_num) ?_ (by norm_num) (by decide +kernel) (by decide +kernel)
  simp only [List.mem_cons, List.not_mem_nil, or_false, forall_eq_or_imp, forall_eq]
  exact ⟨(by norm_num), (by norm_num), (by norm_num), prime_5659⟩

theorem prime_18446744073709549951 : Nat.Prime 18446744073709549951 := by
  refine lucas 12 [2, 3, 5, 5, 11, 11, 11, 11, 419, 1459, 13740053] (by norm_num) (by norm_num) ?_ (by norm_num) (by decide +kernel) (by decide +kernel)
  simp only [List.mem_cons, List.not_mem_nil, or_false, forall_eq_or_imp, forall_eq]
  exact ⟨(by norm_num), (by norm_num), (by norm_num), (by norm_num), (by norm_num), (by norm_num), (by norm_num), (by norm_num), (by norm_num), prime_1459, prime_13740053⟩

theorem prime_3907 : Nat.Prime 3907 := by
  refine lucas 2 [2, 3, 3, 7, 31] (by norm_num) (by norm_num) ?_ (by norm_num) (by decide +kernel) (by decide +kernel)
  simp only [List.mem_cons, List.not_mem_nil, or_false, forall_eq_or_imp, forall_eq]
  exact ⟨(by norm_num), (by norm_num), (by norm_num), (by norm_num), (by norm_num)⟩

theorem prime_15629 : Nat.Prime 15629 := by
  refine lucas 2 [2, 2, 3907] (by norm_num) (by norm_num) ?_ (by norm_num) (by decide +kernel) (by decide +kernel)
  simp only [List.mem_cons, List.not_mem_nil, or_false, forall_eq_or_imp, forall_eq]
  exact ⟨(by norm_num), (by norm_num), prime_3907⟩

theorem prime_214831 : Nat.Prime 214831 := by
  refine lucas 12 [2, 3, 3, 5, 7, 11, 31] (by norm_num) (by norm_num) ?_ (by norm_num) (by decide +kernel) (by decide +kernel)
  simp only [List.mem_cons, List.not_mem_nil, or_false, forall_eq_or_imp, forall_eq]
  exact ⟨(by norm_num), (by norm_num), (by norm_num), (by norm_num), (by norm_num), (by norm_num), (by norm_num)⟩

theorem prime_4391 : Nat.Prime 4391 := by
  refine lucas 14 [2, 5, 439] (by norm_num) (by norm_num) ?_ (by norm_num) (by decide +kernel) (by decide +kernel)
  simp only [List.mem_cons, List.not_mem_nil, or_false, forall_eq_or_imp, forall_eq]
  exact ⟨(by norm_num), (by norm_num), (by norm_num)⟩

theorem prime_21630067 : Nat.Prime 21630067 := by
  refine lucas 3 [2, 3, 821, 4391] (by norm_num) (by norm_num) ?_ (by norm_num) (by decide +kernel) (by decide +kernel)
  simp only [List.mem_cons, List.not_mem_nil, or_false, forall_eq_or_imp, forall_eq]
  exact ⟨(by norm_num), (by norm_num), (by norm_num), prime_4391⟩

theorem prime_18446744073709549583 : Nat.Prime 18446744073709549583 := by
  refine lucas 5 [2, 127, 15629, 214831, 21630067] (by norm_num) (by norm_num) ?_ (by norm_num) (by decide +kernel) (by decide +kernel)
  simp only [List.mem_cons, List.not_mem_nil, or_false, forall_eq_or_imp, forall_eq]
  exact ⟨(by norm_num), (by norm_num), prime_15629, prime_214831, prime_21630067⟩

theorem prime_4969 : Nat.Prime 4969 := by
  refine lucas 11 [2, 2, 2, 3, 3, 3, 23] (by norm_num) (by norm_num) ?_ (by norm_num) (by decide +kernel) (by decide +kernel)
  simp only [List.mem_cons, List.not_mem_nil, or_false, forall_eq_or_imp, forall_eq]
  exact ⟨(by norm_num), (by norm_num), (by norm_num), (by norm_num), (by norm_num), (by norm_num), (by norm_num)⟩

theorem prime_12641 : Nat.Prime 12641 := by
  refine lucas 3 [2, 2, 2, 2, 2, 5, 79] (by norm_num) (by norm_num) ?_ (by norm_num) (by decide +kernel) (by decide +kernel)
  simp only [List.mem_cons, List.not_mem_nil, or_false, forall_eq_or_imp, forall_eq]
  exact ⟨(by norm_num), (by norm_num), (by norm_num), (by norm_num), (by norm_num), (by norm_num), (by norm_num)⟩

theorem prime_635166360449 : Nat.Prime 635166360449 := by
  refine lucas 3 [2, 2, 2, 2, 2, 2, 2, 79, 4969, 12641] (by norm_num) (by norm_num) ?_ (by norm_num) (by decide +kernel) (by decide +kernel)
  simp only [List.mem_cons, List.not_mem_nil, or_false, forall_eq_or_imp, forall_eq]
  exact ⟨(by norm_num), (by norm_num), (by norm_num), (by norm_num), (by norm_num), (by norm_num), (by norm_num), (by norm_num), prime_4969, prime_12641⟩

theorem prime_18446744073709549519 : Nat.Prime 18446744073709549519 := by
  refine lucas 3 [2, 3, 97, 139, 359, 635166360449] (by norm_num) (by norm_num) ?_ (by norm_num) (by decide +kernel) (by decide +kernel)
  simp only [List.mem_cons, List.not_mem_nil, or_false, forall_eq_or_imp, forall_eq]
  exact ⟨(by norm_num), (by norm_num), (by norm_num), (by norm_num), (by norm_num), prime_635166360449⟩

theorem prime_2677 : Nat.Prime 2677 := by
  refine lucas 2 [2, 2, 3, 223] (by norm_num) (by norm_num) ?_ (by norm_num) (by decide +kernel) (by decide +kernel)
  simp only [List.mem_cons, List.not_mem_nil, or_false, forall_eq_or_imp, forall_eq]
  exact ⟨(by norm_num), (by norm_num), (by norm_num), (by norm_num)⟩

theorem prime_10675877 : Nat.Prime 10675877 := by
  refine lucas 2 [2, 2, 997, 2677] (by norm_num) (by norm_num) ?_ (by norm_num) (by decide +kernel) (by decide +kernel)
  simp only [List.mem_cons, List.not_mem_nil, or_false, forall_eq_or_imp, forall_eq]
  exact ⟨(by norm_num), (by norm_num), (by norm_num), prime_2677⟩

theorem prime_3943 : Nat.Prime 3943 := by
  refine lucas 3 [2, 3, 3, 3, 73] (by norm_num) (by norm_num) ?_ (by norm_num) (by decide +kernel) (by decide +kernel)
  simp only [List.mem_cons, List.not_mem_nil, or_false, forall_eq_or_imp, forall_eq]
  exact ⟨(by norm_num), (by norm_num), (by norm_num), (by norm_num), (by norm_num)⟩

theorem prime_19447882151083 : Nat.Prime 19447882151083 := by
  refine lucas 2 [2, 3, 7, 11, 3943, 10675877] (by norm_num) (by norm_num) ?_ (by norm_num) (by decide +kernel) (by decide +kernel)
  simp only [List.mem_cons, List.not_mem_nil, or_false, forall_eq_or_imp, forall_eq]
  exact ⟨(by norm_num), (by norm_num), (by norm_num), (by norm_num), prime_3943, prime_10675877⟩

theorem prime_1399 : Nat.Prime 1399 := by
  refine lucas 13 [2, 3, 233] (by norm_num) (by norm_num) ?_ (by norm_num) (by decide +kernel) (by decide +kernel)
  simp only [List.mem_cons, List.not_mem_nil, or_false, forall_eq_or_imp, forall_eq]
  exact ⟨(by norm_num), (by norm_num), (by norm_num)⟩

theorem prime_18446744073709549327 : Nat.Prime 18446744073709549327 := by
  refine lucas 7 [2, 3, 113, 1399, 19447882151083] (by norm_num) (by norm_num) ?_ (by norm_num) (by decide +kernel) (by decide +kernel)
  simp only [List.mem_cons, List.not_mem_nil, or_false, forall_eq_or_imp, forall_eq]
  exact ⟨(by norm_num), (by norm_num), (by norm_num), prime_1399, prime_19447882151083⟩

theorem prime_7451 : Nat.Prime 7451 := by
  refine lucas 2 [2, 5, 5, 149] (by norm_num) (by norm_num) ?_ (by norm_num) (by decide +kernel) (by decide +kernel)
  simp only [List.mem_cons, List.not_mem_nil, or_false, forall_eq_or_imp, forall_eq]
  exact ⟨(by norm_num), (by norm_num), (by norm_num), (by norm_num)⟩

theorem prime_35753 : Nat.Prime 35753 := by
  refine lucas 3 [2, 2, 2, 41, 109] (by norm_num) (by norm_num) ?_ (by norm_num) (by decide +kernel) (by decide +kernel)
  simp only [List.mem_cons, List.not_mem_nil, or_false, forall_eq_or_imp, forall_eq]
  exact ⟨(by norm_num), (by norm_num), (by norm_num), (by norm_num), (by norm_num)⟩

theorem prime_2645723 : Nat.Prime 2645723 := by
  refine lucas 2 [2, 37, 35753] (by norm_num) (by norm_num) ?_ (by norm_num) (by decide +kernel) (by decide +kernel)
  simp only [List.mem_cons, List.not_mem_nil, or_false, forall_eq_or_imp, forall_eq]
  exact ⟨(by norm_num), (by norm_num), prime_35753⟩

theorem prime_2381 : Nat.Prime 2381 := by
  refine lucas 3 [2, 2, 5, 7, 17] (by norm_num) (by norm_num) ?_ (by norm_num) (by decide +kernel) (by decide +kernel)
  simp only [List.mem_cons, List.not_mem_nil, or_false, forall_eq_or_imp, forall_eq]
  exact ⟨(by norm_num), (by norm_num), (by norm_num), (by norm_num), (by norm_num)⟩

theorem prime_25197865853 : Nat.Prime 25197865853 := by
  refine lucas 2 [2, 2, 2381, 2645723] (by norm_num) (by norm_num) ?_ (by norm_num) (by decide +kernel) (by decide +kernel)
  simp only [List.mem_cons, List.not_mem_nil, or_false, forall_eq_or_imp, forall_eq]
  exact ⟨(by norm_num), (by norm_num), prime_2381, prime_2645723⟩

theorem prime_50395731707 : Nat.Prime 50395731707 := by
  refine lucas 2 [2, 25197865853] (by norm_num) (by norm_num) ?_ (by norm_num) (by decide +kernel) (by decide +kernel)
  simp only [List.mem_cons, List.not_mem_nil, or_false, forall_eq_or_imp, forall_eq]
  exact ⟨(by norm_num), prime_25197865853⟩

theorem prime_18446744073709548983 : Nat.Prime 18446744073709548983 := by
  refine lucas 5 [2, 7, 11, 11, 29, 7451, 50395731707] (by norm_num) (by norm_num) ?_ (by norm_num) (by decide +kernel) (by decide +kernel)
  simp only [List.mem_cons, List.not_mem_nil, or_false, forall_eq_or_imp, forall_eq]
  exact ⟨(by norm_num), (by norm_num), (by norm_num), (by norm_num), (by norm_num), prime_7451, prime_50395731707⟩

theorem prime_2153 : Nat.Prime 2153 := by
  refine lucas 3 [2, 2, 2, 269] (by norm_num) (by norm_num) ?_ (by norm_num) (by decide +kernel) (by decide +kernel)
  simp only [List.mem_cons, List.not_mem_nil, or_false, forall_eq_or_imp, forall_eq]
  exact ⟨(by norm_num), (by norm_num), (by norm_num), (by norm_num)⟩

theorem prime_714797 : Nat.Prime 714797 := by
  refine lucas 2 [2, 2, 83, 2153] (by norm_num) (by norm_num) ?_ (by norm_num) (by decide +kernel) (by decide +kernel)
  simp only [List.mem_cons, List.not_mem_nil, or_false, forall_eq_or_imp, forall_eq]
  exact ⟨(by norm_num), (by norm_num), (by norm_num), prime_2153⟩

theorem prime_2223018671 : Nat.Prime 2223018671 := by
  refine lucas 11 [2, 5, 311, 714797] (by norm_num) (by norm_num) ?_ (by norm_num) (by decide +kernel) (by decide +kernel)
  simp only [List.mem_cons, List.not_mem_nil, or_false, forall_eq_or_imp, forall_eq]
  exact ⟨(by norm_num), (by norm_num), (by norm_num), prime_714797⟩

theorem prime_36786512967709 : Nat.Prime 36786512967709 := by
  refine lucas 6 [2, 2, 3, 7, 197, 2223018671] (by norm_num) (by norm_num) ?_ (by norm_num) (by decide +kernel) (by decide +kernel)
  simp only [List.mem_cons, List.not_mem_nil, or_false, forall_eq_or_imp, forall_eq]
  exact ⟨(by norm_num), (by norm_num), (by norm_num), (by norm_num), (by norm_num), prime_2223018671⟩

theorem prime_17909 : Nat.Prime 17909 := by
  refine lucas 2 [2, 2, 11, 11, 37] (by norm_num) (by norm_num) ?_ (by norm_num) (by decide +kernel) (by decide +kernel)
  simp only [List.mem_cons, List.not_mem_nil, or_false, forall_eq_or_imp, forall_eq]
  exact ⟨(by norm_num), (by norm_num), (by norm_num), (by norm_num), (by norm_num)⟩

theorem prime_250727 : Nat.Prime 250727 := by
  refine lucas 7 [2, 7, 17909] (by norm_num) (by norm_num) ?_ (by norm_num) (by decide +kernel) (by decide +kernel)
  simp only [List.mem_cons, List.not_mem_nil, or_false, forall_eq_or_imp, forall_eq]
  exact ⟨(by norm_num), (by norm_num), prime_17909⟩

theorem prime_18446744073709548887 : Nat.Prime 18446744073709548887 := by
  refine lucas 5 [2, 250727, 36786512967709] (by norm_num) (by norm_num) ?_ (by norm_num) (by decide +kernel) (by decide +kernel)
  simp only [List.mem_cons, List.not_mem_nil, or_false, forall_eq_or_imp, forall_eq]
  exact ⟨(by norm_num), prime_250727, prime_36786512967709⟩

theorem prime_1039 : Nat.Prime 1039 := by
  refine lucas 3 [2, 3, 173] (by norm_num) (by norm_num) ?_ (by norm_num) (by decide +kernel) (by decide +kernel)
  simp only [List.mem_cons, List.not_mem_nil, or_false, forall_eq_or_imp, forall_eq]
  exact ⟨(by norm_num), (by norm_num), (by norm_num)⟩

theorem prime_4157 : Nat.Prime 4157 := by
  refine lucas 2 [2, 2, 1039] (by norm_num) (by norm_num) ?_ (by norm_num) (by decide +kernel) (by decide +kernel)
  simp only [List.mem_cons, List.not_mem_nil, or_false, forall_eq_or_imp, forall_eq]
  exact ⟨(by norm_num), (by norm_num), prime_1039⟩

theorem prime_44983 : Nat.Prime 44983 := by
  refine lucas 3 [2, 3, 3, 3, 7, 7, 17] (by norm_num) (by norm_num) ?_ (by norm_num) (by decide +kernel) (by decide +kernel)
  simp only [List.mem_cons, List.not_mem_nil, or_false, forall_eq_or_imp, forall_eq]
  exact ⟨(by norm_num), (by norm_num), (by norm_num), (by norm_num), (by norm_num), (by norm_num), (by norm_num)⟩

theorem prime_373988663 : Nat.Prime 373988663 := by
  refine lucas 5 [2, 4157, 44983] (by norm_num) (by norm_num) ?_ (by norm_num) (by decide +kernel) (by decide +kernel)
  simp only [List.mem_cons, List.not_mem_nil, or_false, forall_eq_or_imp, forall_eq]
  exact ⟨(by norm_num), prime_4157, prime_44983⟩

theorem prime_5235841283 : Nat.Prime 5235841283 := by
  refine lucas 2 [2, 7, 373988663] (by norm_num) (by norm_num) ?_ (by norm_num) (by decide +kernel) (by decide +kernel)
  simp only [List.mem_cons, List.not_mem_nil, or_false, forall_eq_or_imp, forall_eq]
  exact ⟨(by norm_num), (by norm_num), prime_373988663⟩

theorem prime_13469 : Nat.Prime 13469 := by
  refine lucas 2 [2, 2, 7, 13, 37] (by norm_num) (by norm_num) ?_ (by norm_num) (by decide +kernel) (by decide +kernel)
  simp only [List.mem_cons, List.not_mem_nil, or_false, forall_eq_or_imp, forall_eq]
  exact ⟨(by norm_num), (by norm_num), (by norm_num), (by norm_num), (by norm_num)⟩

theorem prime_195731509 : Nat.Prime 195731509 := by
  refine lucas 11 [2, 2, 3, 7, 173, 13469] (by norm_num) (by norm_num) ?_ (by norm_num) (by decide +kernel) (by decide +kernel)
  simp only [List.mem_cons, List.not_mem_nil, or_false, forall_eq_or_imp, forall_eq]
  exact ⟨(by norm_num), (by norm_num), (by norm_num), (by norm_num), (by norm_num), prime_13469⟩

theorem prime_18446744073709548847 : Nat.Prime 18446744073709548847 := by
  refine lucas 3 [2, 3, 3, 195731509, 5235841283] (by norm_num) (by norm_num) ?_ (by norm_num) (by decide +kernel) (by decide +kernel)
  simp only [List.mem_cons, List.not_mem_nil, or_false, forall_eq_or_imp, forall_eq]
  exact ⟨(by norm_num), (by norm_num), (by norm_num), prime_195731509, prime_5235841283⟩

theorem prime_8273 : Nat.Prime 8273 := by
  refine lucas 3 [2, 2, 2, 2, 11, 47] (by norm_num) (by norm_num) ?_ (by norm_num) (by decide +kernel) (by decide +kernel)
  simp only [List.mem_cons, List.not_mem_nil, or_false, forall_eq_or_imp, forall_eq]
  exact ⟨(by norm_num), (by norm_num), (by norm_num), (by norm_num), (by norm_num), (by norm_num)⟩

theorem prime_132103 : Nat.Prime 132103 := by
  refine lucas 3 [2, 3, 3, 41, 179] (by norm_num) (by norm_num) ?_ (by norm_num) (by decide +kernel) (by decide +kernel)
  simp only [List.mem_cons, List.not_mem_nil, or_false, forall_eq_or_imp, forall_eq]
  exact ⟨(by norm_num), (by norm_num), (by norm_num), (by norm_num), (by norm_num)⟩

theorem prime_2185776239 : Nat.Prime 2185776239 := by
  refine lucas 11 [2, 8273, 132103] (by norm_num) (by norm_num) ?_ (by norm_num) (by decide +kernel) (by decide +kernel)
  simp only [List.mem_cons, List.not_mem_nil, or_false, forall_eq_or_imp, forall_eq]
  exact ⟨(by norm_num), prime_8273, prime_132103⟩

theorem prime_6067 : Nat.Prime 6067 := by
  refine lucas 2 [2, 3, 3, 337] (by norm_num) (by norm_num) ?_ (by norm_num) (by decide +kernel) (by decide +kernel)
  simp only [List.mem_cons, List.not_mem_nil, or_false, forall_eq_or_imp, forall_eq]
  exact ⟨(by norm_num), (by norm_num), (by norm_num), (by norm_num)⟩

theorem prime_1116329 : Nat.Prime 1116329 := by
  refine lucas 3 [2, 2, 2, 23, 6067] (by norm_num) (by norm_num) ?_ (by norm_num) (by decide +kernel) (by decide +kernel)
  simp only [List.mem_cons, List.not_mem_nil, or_false, forall_eq_or_imp, forall_eq]
  exact ⟨(by norm_num), (by norm_num), (by norm_num), (by norm_num), prime_6067⟩

theorem prime_22326581 : Nat.Prime 22326581 := by
  refine lucas 3 [2, 2, 5, 1116329] (by norm_num) (by norm_num) ?_ (by norm_num) (by decide +kernel) (by decide +kernel)
  simp only [List.mem_cons, List.not_mem_nil, or_false, forall_eq_or_imp, forall_eq]
  exact ⟨(by norm_num), (by norm_num), (by norm_num), prime_1116329⟩

theorem prime_18446744073709548703 : Nat.Prime 18446744073709548703 := by
  refine lucas 5 [2, 3, 3, 3, 7, 22326581, 2185776239] (by norm_num) (by norm_num) ?_ (by norm_num) (by decide +kernel) (by decide +kernel)
  simp only [List.mem_cons, List.not_mem_nil, or_false, forall_eq_or_imp, forall_eq]
  exact ⟨(by norm_num), (by norm_num), (by norm_num), (by norm_num), (by norm_num), prime_22326581, prime_2185776239⟩

theorem prime_28429 : Nat.Prime 28429 := by
  refine lucas 2 [2, 2, 3, 23, 103] (by norm_num) (by norm_num) ?_ (by norm_num) (by decide +kernel) (by decide +kernel)
  simp only [List.mem_cons, List.not_mem_nil, or_false, forall_eq_or_imp, forall_eq]
  exact ⟨(by norm_num), (by norm_num), (by norm_num), (by norm_num), (by norm_num)⟩

theorem prime_106912657 : Nat.Prime 106912657 := by
  refine lucas 5 [2, 2, 2, 2, 3, 3, 3, 263, 941] (by norm_num) (by norm_num) ?_ (by norm_num) (by decide +kernel) (by decide +kernel)
  simp only [List.mem_cons, List.not_mem_nil, or_false, forall_eq_or_imp, forall_eq]
  exact ⟨(by norm_num), (by norm_num), (by norm_num), (by norm_num), (by norm_num), (by norm_num), (by norm_num), (by norm_num), (by norm_num)⟩

theorem prime_12697 : Nat.Prime 12697 := by
  refine lucas 7 [2, 2, 2, 3, 23, 23] (by norm_num) (by norm_num) ?_ (by norm_num) (by decide +kernel) (by decide +kernel)
  simp only [List.mem_cons, List.not_mem_nil, or_false, forall_eq_or_imp, forall_eq]
  exact ⟨(by norm_num), (by norm_num), (by norm_num), (by norm_num), (by norm_num), (by norm_num)⟩

theorem prime_18446744073709548599 : Nat.Prime 18446744073709548599 := by
  refine lucas 7 [2, 239, 12697, 28429, 106912657] (by norm_num) (by norm_num) ?_ (by norm_num) (by decide +kernel) (by decide +kernel)
  simp only [List.mem_cons, List.not_mem_nil, or_false, forall_eq_or_imp, forall_eq]
  exact ⟨(by norm_num), (by norm_num), prime_12697, prime_28429, prime_106912657⟩

theorem prime_1811 : Nat.Prime 1811 := by
  refine lucas 6 [2, 5, 181] (by norm_num) (by norm_num) ?_ (by norm_num) (by decide +kernel) (by decide +kernel)
  simp only [List.mem_cons, List.not_mem_nil, or_false, forall_eq_or_imp, forall_eq]
  exact ⟨(by norm_num), (by norm_num), (by norm_num)⟩

theorem prime_536057 : Nat.Prime 536057 := by
  refine lucas 3 [2, 2, 2, 37, 1811] (by norm_num) (by norm_num) ?_ (by norm_num) (by decide +kernel) (by decide +kernel)
  simp only [List.mem_cons, List.not_mem_nil, or_false, forall_eq_or_imp, forall_eq]
  exact ⟨(by norm_num), (by norm_num), (by norm_num), (by norm_num), prime_1811⟩

theorem prime_19861 : Nat.Prime 19861 := by
  refine lucas 11 [2, 2, 3, 5, 331] (by norm_num) (by norm_num) ?_ (by norm_num) (by decide +kernel) (by decide +kernel)
  simp only [List.mem_cons, List.not_mem_nil, or_false, forall_eq_or_imp, forall_eq]
  exact ⟨(by norm_num), (by norm_num), (by norm_num), (by norm_num), (by norm_num)⟩

theorem prime_7942384545443 : Nat.Prime 7942384545443 := by
  refine lucas 2 [2, 373, 19861, 536057] (by norm_num) (by norm_num) ?_ (by norm_num) (by decide +kernel) (by decide +kernel)
  simp only [List.mem_cons, List.not_mem_nil, or_false, forall_eq_or_imp, forall_eq]
  exact ⟨(by norm_num), (by norm_num), prime_19861, prime_536057⟩

theorem prime_77419 : Nat.Prime 77419 := by
  refine lucas 2 [2, 3, 3, 11, 17, 23] (by norm_num) (by norm_num) ?_ (by norm_num) (by decide +kernel) (by decide +kernel)
  simp only [List.mem_cons, List.not_mem_nil, or_false, forall_eq_or_imp, forall_eq]
  exact ⟨(by norm_num), (by norm_num), (by norm_num), (by norm_num), (by norm_num), (by norm_num)⟩

theorem prime_18446744073709548511 : Nat.Prime 18446744073709548511 := by
  refine lucas 12 [2, 3, 5, 77419, 7942384545443] (by norm_num) (by norm_num) ?_ (by norm_num) (by decide +kernel) (by decide +kernel)
  simp only [List.mem_cons, List.not_mem_nil, or_false, forall_eq_or_imp, forall_eq]
  exact ⟨(by norm_num), (by norm_num), (by norm_num), prime_77419, prime_7942384545443⟩

theorem prime_1301 : Nat.Prime 1301 := by
  refine lucas 2 [2, 2, 5, 5, 13] (by norm_num) (by norm_num) ?_ (by norm_num) (by decide +kernel) (by decide +kernel)
  simp only [List.mem_cons, List.not_mem_nil, or_false, forall_eq_or_imp, forall_eq]
  exact ⟨(by norm_num), (by norm_num), (by norm_num), (by norm_num), (by norm_num)⟩

theorem prime_26563819 : Nat.Prime 26563819 := by
  refine lucas 2 [2, 3, 41, 83, 1301] (by norm_num) (by norm_num) ?_ (by norm_num) (by decide +kernel) (by decide +kernel)
  simp only [List.mem_cons, List.not_mem_nil, or_false, forall_eq_or_imp, forall_eq]
  exact ⟨(by norm_num), (by norm_num), (by norm_num), (by norm_num), prime_1301⟩

theorem prime_1303 : Nat.Prime 1303 := by
  refine lucas 6 [2, 3, 7, 31] (by norm_num) (by norm_num) ?_ (by norm_num) (by decide +kernel) (by decide +kernel)
  simp only [List.mem_cons, List.not_mem_nil, or_false, forall_eq_or_imp, forall_eq]
  exact ⟨(by norm_num), (by norm_num), (by norm_num), (by norm_num)⟩

theorem prime_2699787180247 : Nat.Prime 2699787180247 := by
  refine lucas 3 [2, 3, 13, 1303, 26563819] (by norm_num) (by norm_num) ?_ (by norm_num) (by decide +kernel) (by decide +kernel)
  simp only [List.mem_cons, List.not_mem_nil, or_false, forall_eq_or_imp, forall_eq]
  exact ⟨(by norm_num), (by norm_num), (by norm_num), prime_1303, prime_26563819⟩

theorem prime_179807 : Nat.Prime 179807 := by
  refine lucas 5 [2, 11, 11, 743] (by norm_num) (by norm_num) ?_ (by norm_num) (by decide +kernel) (by decide +kernel)
  simp only [List.mem_cons, List.not_mem_nil, or_false, forall_eq_or_imp, forall_eq]
  exact ⟨(by norm_num), (by norm_num), (by norm_num), (by norm_num)⟩

theorem prime_18446744073709548503 : Nat.Prime 18446744073709548503 := by
  refine lucas 5 [2, 19, 179807, 2699787180247] (by norm_num) (by norm_num) ?_ (by norm_num) (by decide +kernel) (by decide +kernel)
  simp only [List.mem_cons, List.not_mem_nil, or_false, forall_eq_or_imp, forall_eq]
  exact ⟨(by norm_num), (by norm_num), prime_179807, prime_2699787180247⟩

theorem cand_18446744073709551359 : Det (candidate 18446744073709551359) true :=
  candidate_det (rs := [4199347624267788251, 7226676300641527284, 1667924370943232355, 232061468773340519]) prime_18446744073709551359 (by norm_num) (by norm_num) (by decide +kernel) (by decide +kernel) (by decide +kernel)

theorem cand_18446744073709551263 : Det (candidate 18446744073709551263) true :=
  candidate_det (rs := [3023071146809045688, 1801892432324503420, 1898709910918699296, 908088953928228955]) prime_18446744073709551263 (by norm_num) (by norm_num) (by decide +kernel) (by decide +kernel) (by decide +kernel)

theorem cand_18446744073709551191 : Det (candidate 18446744073709551191) false :=
  candidate_det (rs := [6558168127960989971, 7354157749843360907]) prime_18446744073709551191 (by norm_num) (by norm_num) (by decide +kernel) (by decide +kernel) (by decide +kernel)

theorem cand_18446744073709550791 : Det (candidate 18446744073709550791) false :=
  candidate_det (rs := [8299661918036402595]) prime_18446744073709550791 (by norm_num) (by norm_num) (by decide +kernel) (by decide +kernel) (by decide +kernel)

theorem cand_18446744073709550719 : Det (candidate 18446744073709550719) false :=
  candidate_det (rs := [7480654926346080098]) prime_18446744073709550719 (by norm_num) (by norm_num) (by decide +kernel) (by decide +kernel) (by decide +kernel)

theorem cand_18446744073709550671 : Det (candidate 18446744073709550671) false :=
  candidate_det (rs := [7536088888535720989]) prime_18446744073709550671 (by norm_num) (by norm_num) (by decide +kernel) (by decide +kernel) (by decide +kernel)

theorem cand_18446744073709550591 : Det (candidate 18446744073709550591) false :=
  candidate_det (rs := [8062647779708286441, 7830683885756437536]) prime_18446744073709550591 (by norm_num) (by norm_num) (by decide +kernel) (by decide +kernel) (by decide +kernel)

theorem cand_18446744073709550111 : Det (candidate 18446744073709550111) false :=
  candidate_det (rs := [8526761821879632649]) prime_18446744073709550111 (by norm_num) (by norm_num) (by decide +kernel) (by decide +kernel) (by decide +kernel)

theorem cand_18446744073709550047 : Det (candidate 18446744073709550047) false :=
  candidate_det (rs := [3295506479525075466]) prime_18446744073709550047 (by norm_num) (by norm_num) (by decide +kernel) (by decide +kernel) (by decide +kernel)

theorem cand_18446744073709549951 : Det (candidate 18446744073709549951) false :=
  candidate_det (rs := [2261884414594907931]) prime_18446744073709549951 (by norm_num) (by norm_num) (by decide +kernel) (by decide +kernel) (by decide +kernel)

theorem cand_18446744073709549583 : Det (candidate 18446744073709549583) false :=
  candidate_det (rs := [7584031483142104723]) prime_18446744073709549583 (by norm_num) (by norm_num) (by decide +kernel) (by decide +kernel) (by decide +kernel)

theorem cand_18446744073709549519 : Det (candidate 18446744073709549519) false :=
  candidate_det (rs := [5051195979407529129]) prime_18446744073709549519 (by norm_num) (by norm_num) (by decide +kernel) (by decide +kernel) (by decide +kernel)

theorem cand_18446744073709549327 : Det (candidate 18446744073709549327) true :=
  candidate_det (rs := [3535797437060616914, 8472262852491677680, 8463058212634991089, 5505787261907692961]) prime_18446744073709549327 (by norm_num) (by norm_num) (by decide +kernel) (by decide +kernel) (by decide +kernel)

theorem cand_18446744073709548983 : Det (candidate 18446744073709548983) false :=
  candidate_det (rs := [2746355442328658623, 8605569047312686900]) prime_18446744073709548983 (by norm_num) (by norm_num) (by decide +kernel) (by decide +kernel) (by decide +kernel)

theorem cand_18446744073709548887 : Det (candidate 18446744073709548887) false :=
  candidate_det (rs := [7488106738436729360]) prime_18446744073709548887 (by norm_num) (by norm_num) (by decide +kernel) (by decide +kernel) (by decide +kernel)

theorem cand_18446744073709548847 : Det (candidate 18446744073709548847) false :=
  candidate_det (rs := [133594117240351015]) prime_18446744073709548847 (by norm_num) (by norm_num) (by decide +kernel) (by decide +kernel) (by decide +kernel)

theorem cand_18446744073709548703 : Det (candidate 18446744073709548703) false :=
  candidate_det (rs := [1251860055450280701, 220559878964846510]) prime_18446744073709548703 (by norm_num) (by norm_num) (by decide +kernel) (by decide +kernel) (by decide +kernel)

theorem cand_18446744073709548599 : Det (candidate 18446744073709548599) false :=
  candidate_det (rs := [8392493100236403750, 1505806594854188492]) prime_18446744073709548599 (by norm_num) (by norm_num) (by decide +kernel) (by decide +kernel) (by decide +kernel)

theorem cand_18446744073709548511 : Det (candidate 18446744073709548511) false :=
  candidate_det (rs := [2682173173238800013]) prime_18446744073709548511 (by norm_num) (by norm_num) (by decide +kernel) (by decide +kernel) (by decide +kernel)

theorem cand_18446744073709548503 : Det (candidate 18446744073709548503) true :=
  candidate_det (rs := [4714937130837256631, 8647570181815887170, 6600632213033095854, 7999097046666482438]) prime_18446744073709548503 (by norm_num) (by norm_num) (by decide +kernel) (by decide +kernel) (by decide +kernel)

/-- The search from the largest number of 64 bits. -/
theorem fields_out : Out (2 ^ 64 - 1) 4 [18446744073709551359, 18446744073709551263, 18446744073709549327, 18446744073709548503] := by
  refine Out.skip 256 (by norm_num) (by norm_num) (by decide +kernel) ?_
  refine Out.take (p := 18446744073709551359) (by norm_num) (by norm_num) cand_18446744073709551359 ?_
  refine Out.skip 95 (by norm_num) (by norm_num) (by decide +kernel) ?_
  refine Out.take (p := 18446744073709551263) (by norm_num) (by norm_num) cand_18446744073709551263 ?_
  refine Out.skip 71 (by norm_num) (by norm_num) (by decide +kernel) ?_
  refine Out.leave (p := 18446744073709551191) (by norm_num) (by norm_num) cand_18446744073709551191 ?_
  refine Out.skip 399 (by norm_num) (by norm_num) (by decide +kernel) ?_
  refine Out.leave (p := 18446744073709550791) (by norm_num) (by norm_num) cand_18446744073709550791 ?_
  refine Out.skip 71 (by norm_num) (by norm_num) (by decide +kernel) ?_
  refine Out.leave (p := 18446744073709550719) (by norm_num) (by norm_num) cand_18446744073709550719 ?_
  refine Out.skip 47 (by norm_num) (by norm_num) (by decide +kernel) ?_
  refine Out.leave (p := 18446744073709550671) (by norm_num) (by norm_num) cand_18446744073709550671 ?_
  refine Out.skip 79 (by norm_num) (by norm_num) (by decide +kernel) ?_
  refine Out.leave (p := 18446744073709550591) (by norm_num) (by norm_num) cand_18446744073709550591 ?_
  refine Out.skip 479 (by norm_num) (by norm_num) (by decide +kernel) ?_
  refine Out.leave (p := 18446744073709550111) (by norm_num) (by norm_num) cand_18446744073709550111 ?_
  refine Out.skip 63 (by norm_num) (by norm_num) (by decide +kernel) ?_
  refine Out.leave (p := 18446744073709550047) (by norm_num) (by norm_num) cand_18446744073709550047 ?_
  refine Out.skip 95 (by norm_num) (by norm_num) (by decide +kernel) ?_
  refine Out.leave (p := 18446744073709549951) (by norm_num) (by norm_num) cand_18446744073709549951 ?_
  refine Out.skip 367 (by norm_num) (by norm_num) (by decide +kernel) ?_
  refine Out.leave (p := 18446744073709549583) (by norm_num) (by norm_num) cand_18446744073709549583 ?_
  refine Out.skip 63 (by norm_num) (by norm_num) (by decide +kernel) ?_
  refine Out.leave (p := 18446744073709549519) (by norm_num) (by norm_num) cand_18446744073709549519 ?_
  refine Out.skip 191 (by norm_num) (by norm_num) (by decide +kernel) ?_
  refine Out.take (p := 18446744073709549327) (by norm_num) (by norm_num) cand_18446744073709549327 ?_
  refine Out.skip 343 (by norm_num) (by norm_num) (by decide +kernel) ?_
  refine Out.leave (p := 18446744073709548983) (by norm_num) (by norm_num) cand_18446744073709548983 ?_
  refine Out.skip 95 (by norm_num) (by norm_num) (by decide +kernel) ?_
  refine Out.leave (p := 18446744073709548887) (by norm_num) (by norm_num) cand_18446744073709548887 ?_
  refine Out.skip 39 (by norm_num) (by norm_num) (by decide +kernel) ?_
  refine Out.leave (p := 18446744073709548847) (by norm_num) (by norm_num) cand_18446744073709548847 ?_
  refine Out.skip 143 (by norm_num) (by norm_num) (by decide +kernel) ?_
  refine Out.leave (p := 18446744073709548703) (by norm_num) (by norm_num) cand_18446744073709548703 ?_
  refine Out.skip 103 (by norm_num) (by norm_num) (by decide +kernel) ?_
  refine Out.leave (p := 18446744073709548599) (by norm_num) (by norm_num) cand_18446744073709548599 ?_
  refine Out.skip 87 (by norm_num) (by norm_num) (by decide +kernel) ?_
  refine Out.leave (p := 18446744073709548511) (by norm_num) (by norm_num) cand_18446744073709548511 ?_
  refine Out.skip 7 (by norm_num) (by norm_num) (by decide +kernel) ?_
  refine Out.take (p := 18446744073709548503) (by norm_num) (by norm_num) cand_18446744073709548503 ?_
  exact Out.done _

end Mandelbrot.Sig
