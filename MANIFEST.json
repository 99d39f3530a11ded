{
 "claims": [
  {
   "property": "C01",
   "status": "proved",
   "theorems": [
    "Mandelbrot.C01_partition",
    "Mandelbrot.C01_unique_owner",
    "Mandelbrot.C01_throws"
   ],
   "note": ""
  },
  {
   "property": "C02",
   "status": "proved",
   "theorems": [
    "Mandelbrot.C02_map_reduce",
    "Mandelbrot.C02_map_reduce_relational",
    "Mandelbrot.C02_no_failure",
    "Mandelbrot.C02_progress",
    "Mandelbrot.C02_terminates"
   ],
   "note": ""
  },
  {
   "property": "C03",
   "status": "proved",
   "theorems": [
    "Mandelbrot.C03_slots",
    "Mandelbrot.C03_no_sharing"
   ],
   "note": ""
  },
  {
   "property": "C04",
   "status": "proved",
   "theorems": [
    "Mandelbrot.C04_host",
    "Mandelbrot.C04_device",
    "Mandelbrot.C04_memory",
    "Mandelbrot.C04_truncation_witness"
   ],
   "note": ""
  },
  {
   "property": "C05",
   "status": "proved",
   "theorems": [
    "Mandelbrot.Props.C05_counts",
    "Mandelbrot.Props.C05_step",
    "Mandelbrot.Props.C05_setCounts_negative_known",
    "Mandelbrot.Props.C05_setCounts_throws"
   ],
   "note": "Any coefficient arithmetic and kernels. set_counts with negative known and a negative shift in shifted addition are excluded by hypothesis; witnesses show why."
  },
  {
   "property": "C06",
   "status": "proved",
   "theorems": [
    "Mandelbrot.Props.C06_low",
    "Mandelbrot.Props.C06_high",
    "Mandelbrot.Props.C06_high_neg",
    "Mandelbrot.Props.C06_views"
   ],
   "note": ""
  },
  {
   "property": "C07",
   "status": "proved",
   "theorems": [
    "Mandelbrot.Props.C07_assign_throws",
    "Mandelbrot.Props.C07_assign",
    "Mandelbrot.Props.C07_copy",
    "Mandelbrot.Props.C07_swap_move"
   ],
   "note": ""
  },
  {
   "property": "C08",
   "status": "proved",
   "theorems": [
    "Mandelbrot.Props.C08_addsub",
    "Mandelbrot.Props.C08_throws",
    "Mandelbrot.Props.C08_operators",
    "Mandelbrot.Props.C08_negative_shift"
   ],
   "note": ""
  },
  {
   "property": "C09",
   "status": "proved",
   "theorems": [
    "Mandelbrot.Props.C09_mul",
    "Mandelbrot.Props.C09_mul_zero",
    "Mandelbrot.Props.C09_mul_small"
   ],
   "note": "For every kernel whose products are exact up to N terms (Ker.ExactMul); C58 shows this for the transforms over the reals with N = 2^28."
  },
  {
   "property": "C10",
   "status": "proved",
   "theorems": [
    "Mandelbrot.Props.C10_sqr"
   ],
   "note": ""
  },
  {
   "property": "C11",
   "status": "proved",
   "theorems": [
    "Mandelbrot.Props.C11_mul1p",
    "Mandelbrot.Props.C11_shift_positive"
   ],
   "note": ""
  },
  {
   "property": "C12",
   "status": "proved",
   "theorems": [
    "Mandelbrot.Props.C12_inv",
    "Mandelbrot.Props.C12_inv_throws"
   ],
   "note": ""
  },
  {
   "property": "C13",
   "status": "proved",
   "theorems": [
    "Mandelbrot.Props.C13_div"
   ],
   "note": ""
  },
  {
   "property": "C14",
   "status": "proved",
   "theorems": [
    "Mandelbrot.Props.C14_inv1p",
    "Mandelbrot.Props.C14_div1p"
   ],
   "note": ""
  },
  {
   "property": "C15",
   "status": "proved",
   "theorems": [
    "Mandelbrot.Props.C15_exp",
    "Mandelbrot.Props.C15_exp_throws"
   ],
   "note": ""
  },
  {
   "property": "C16",
   "status": "proved",
   "theorems": [
    "Mandelbrot.Props.C16_log",
    "Mandelbrot.Props.C16_log_throws",
    "Mandelbrot.Props.C16_log1p"
   ],
   "note": ""
  },
  {
   "property": "C17",
   "status": "proved",
   "theorems": [
    "Mandelbrot.Props.C17_expm1",
    "Mandelbrot.Props.C17_expm1_throws"
   ],
   "note": ""
  },
  {
   "property": "C18",
   "status": "proved",
   "theorems": [
    "Mandelbrot.Props.C18_log1p_exp"
   ],
   "note": ""
  },
  {
   "property": "C19",
   "status": "proved",
   "theorems": [
    "Mandelbrot.Props.C19_derivative",
    "Mandelbrot.Props.C19_integral",
    "Mandelbrot.Props.C19_inverse",
    "Mandelbrot.Props.C19_ldexp"
   ],
   "note": ""
  },
  {
   "property": "C20",
   "status": "proved",
   "theorems": [
    "Mandelbrot.Props.C20_schedule",
    "Mandelbrot.Props.C20_trivial"
   ],
   "note": ""
  },
  {
   "property": "C21",
   "status": "proved",
   "theorems": [
    "Mandelbrot.Props.C21_fft",
    "Mandelbrot.Props.C21_ifft",
    "Mandelbrot.Props.C21_ifft_fft",
    "Mandelbrot.Props.C21_rfft",
    "Mandelbrot.Props.C21_irfft",
    "Mandelbrot.Props.C21_irfft_rfft",
    "Mandelbrot.Props.C21_reject",
    "Mandelbrot.Props.C21_one_cell"
   ],
   "note": ""
  },
  {
   "property": "C22",
   "status": "proved",
   "theorems": [
    "Mandelbrot.Props.C22_srfft_scramble",
    "Mandelbrot.Props.C22_srfft",
    "Mandelbrot.Props.C22_isrfft",
    "Mandelbrot.Props.C22_roundtrip",
    "Mandelbrot.Props.C22_roundtrip_natural",
    "Mandelbrot.Props.C22_reject",
    "Mandelbrot.Props.C22_long_output",
    "Mandelbrot.Props.C22_too_large"
   ],
   "note": ""
  },
  {
   "property": "C23",
   "status": "proved",
   "theorems": [
    "Mandelbrot.Props.C23_fft_mul",
    "Mandelbrot.Props.C23_fft_mul_general",
    "Mandelbrot.Props.C23_no_wrap",
    "Mandelbrot.Props.C23_fft_sqr",
    "Mandelbrot.Props.C23_fft_addmul",
    "Mandelbrot.Props.C23_reject",
    "Mandelbrot.Props.C23_wrap_witness",
    "Mandelbrot.Props.C23_too_large"
   ],
   "note": ""
  },
  {
   "property": "C24",
   "status": "proved",
   "theorems": [
    "Mandelbrot.Props.C24_slice",
    "Mandelbrot.Props.C24_big_slice"
   ],
   "note": ""
  },
  {
   "property": "C25",
   "status": "proved",
   "theorems": [
    "Mandelbrot.Props.C25_slice",
    "Mandelbrot.Props.C25_big_slice",
    "Mandelbrot.Props.C25_same_pointer",
    "Mandelbrot.Props.C25_limits",
    "Mandelbrot.Props.C25_clear_ends"
   ],
   "note": ""
  },
  {
   "property": "C26",
   "status": "proved",
   "theorems": [
    "Mandelbrot.Props.C26_bitrev",
    "Mandelbrot.Props.C26_involution",
    "Mandelbrot.Props.C26_shifted",
    "Mandelbrot.Props.C26_bitrev_neg",
    "Mandelbrot.Props.C26_is_reversal",
    "Mandelbrot.Props.C26_odd_ub"
   ],
   "note": ""
  },
  {
   "property": "C27",
   "status": "proved",
   "theorems": [
    "Mandelbrot.Props.C27_implicit",
    "Mandelbrot.Props.C27_escape",
    "Mandelbrot.Props.C27_perturbation",
    "Mandelbrot.Props.C27_mandelbrot"
   ],
   "note": ""
  },
  {
   "property": "C28",
   "status": "proved",
   "theorems": [
    "Mandelbrot.Props.C28_step",
    "Mandelbrot.Props.C28_base",
    "Mandelbrot.Props.C28_areas",
    "Mandelbrot.Props.C28_areas_accept",
    "Mandelbrot.Props.C28_not_power",
    "Mandelbrot.Props.C28_overflow"
   ],
   "note": ""
  },
  {
   "property": "C29",
   "status": "proved",
   "theorems": [
    "Mandelbrot.Props.C29_one_series",
    "Mandelbrot.Props.C29_unique",
    "Mandelbrot.Props.C29_exists",
    "Mandelbrot.Props.C29_prefix",
    "Mandelbrot.Props.C29_runs_agree"
   ],
   "note": ""
  },
  {
   "property": "C30",
   "status": "proved",
   "theorems": [
    "Mandelbrot.Props.C30_encloses",
    "Mandelbrot.Props.C30_exact",
    "Mandelbrot.Props.C30_antitone",
    "Mandelbrot.Props.C30_le_pi"
   ],
   "note": ""
  },
  {
   "property": "C31",
   "status": "proved",
   "theorems": [
    "Mandelbrot.Props.C31_known_to_k"
   ],
   "note": ""
  },
  {
   "property": "C32",
   "status": "proved",
   "theorems": [
    "Mandelbrot.Props.C32_roundtrip",
    "Mandelbrot.Props.C32_writes",
    "Mandelbrot.Props.C32_expansion",
    "Mandelbrot.Props.C32_comment_witness"
   ],
   "note": ""
  },
  {
   "property": "C33",
   "status": "proved",
   "theorems": [
    "Mandelbrot.Props.C33_detected",
    "Mandelbrot.Props.C33_silent",
    "Mandelbrot.Props.C33_comments_only",
    "Mandelbrot.Props.C33_last_number"
   ],
   "note": ""
  },
  {
   "property": "C34",
   "status": "proved",
   "theorems": [
    "Mandelbrot.Props.C34_resume",
    "Mandelbrot.Props.C34_wrong_file",
    "Mandelbrot.Props.C34_cut_witness",
    "Mandelbrot.Props.C34_runs"
   ],
   "note": "Any arithmetic; assumes the multiplication kernels look only at their operands' cells, the area text depends only on the series, and the number format round-trips. C34_runs shows runs exist. C34_cut_witness: a file cut after its comments leads to undefined behaviour."
  },
  {
   "property": "C35",
   "status": "proved",
   "theorems": [
    "Mandelbrot.Props.C35_header",
    "Mandelbrot.Props.C35_read_back",
    "Mandelbrot.Props.C35_file",
    "Mandelbrot.Props.C35_overflow"
   ],
   "note": ""
  },
  {
   "property": "C36",
   "status": "proved",
   "theorems": [
    "Mandelbrot.Sig.C36_ops",
    "Mandelbrot.Sig.C36_ofInt",
    "Mandelbrot.Sig.C36_expressions",
    "Mandelbrot.Sig.C36_integers",
    "Mandelbrot.Sig.C36_faithful",
    "Mandelbrot.Sig.C36_shift",
    "Mandelbrot.Sig.C36_shift_witness",
    "Mandelbrot.Sig.C36_unsmall"
   ],
   "note": "C36_ops, C36_ofInt, C36_expressions (variables allowed), C36_integers, C36_faithful (equal signatures iff equal values below 2^252, by CRT over the proved primes), C36_shift (+ witness for counts 31 and 32), C36_unsmall."
  },
  {
   "property": "C37",
   "status": "proved",
   "theorems": [
    "Mandelbrot.Sig.C37_pow",
    "Mandelbrot.Sig.C37_inv",
    "Mandelbrot.Sig.C37_inv_sig",
    "Mandelbrot.Sig.C37_hasSqrt",
    "Mandelbrot.Sig.C37_sqrt",
    "Mandelbrot.Sig.C37_sqrt_nonresidue",
    "Mandelbrot.Sig.C37_sqrt_ends",
    "Mandelbrot.Sig.C37_pow_sig",
    "Mandelbrot.Sig.C37_pow_complex"
   ],
   "note": "inv proved for every modulus and operand of 64 bits incl. absence of 128-bit overflow; sqrt for every odd prime, every residue and every stream of random numbers."
  },
  {
   "property": "C38",
   "status": "partial",
   "theorems": [
    "Mandelbrot.Sig.C38_accepts_partial",
    "Mandelbrot.Sig.C38_rejected",
    "Mandelbrot.Sig.C38_one",
    "Mandelbrot.Sig.C38_fields",
    "Mandelbrot.Sig.C38_moduli"
   ],
   "note": "The claim is false for six primes (13, 19, 73, 193, 407521, 299210837), proved in C38_accepts_partial / C38_rejected; every other prime is accepted. The field search is proved to give exactly four primes for all random numbers (C38_fields, C38_moduli)."
  },
  {
   "property": "C39",
   "status": "proved",
   "theorems": [
    "Mandelbrot.Sym.C39_simplify",
    "Mandelbrot.Sym.C39_total",
    "Mandelbrot.Sym.C39_div_zero",
    "Mandelbrot.Sym.C39_int_min",
    "Mandelbrot.Sym.C39_units",
    "Mandelbrot.Sym.C39_one"
   ],
   "note": "Any commutative ring in which division by the divisors used makes sense (DivOk). C39_total: no failure for literals in range; C39_div_zero and C39_int_min are the failing cases."
  },
  {
   "property": "C40",
   "status": "proved",
   "theorems": [
    "Mandelbrot.Sym.C40_histories",
    "Mandelbrot.Sym.C40_signatures",
    "Mandelbrot.Sym.C40_point",
    "Mandelbrot.Sym.C40_inexact_confused"
   ],
   "note": "All histories. Needs that no two different expressions met share a signature (C54 bounds how rarely that fails); C40_inexact_confused shows + and - confused with inexact signatures. The hash `arbitrary` is a parameter giving reduced residues."
  },
  {
   "property": "C41",
   "status": "proved",
   "theorems": [
    "Mandelbrot.Sym.C41_code",
    "Mandelbrot.Sym.C41_finishes",
    "Mandelbrot.Sym.C41_fresh",
    "Mandelbrot.Sym.C41_refused"
   ],
   "note": "All sequences of inputs, uses and outputs. C41_refused: a block can fail with an assertion when two different expressions share a signature."
  },
  {
   "property": "C42",
   "status": "proved",
   "theorems": [
    "Mandelbrot.Sym.C42_derivative",
    "Mandelbrot.Sym.C42_transpose",
    "Mandelbrot.Sym.C42_partials",
    "Mandelbrot.Sym.C42_unreached",
    "Mandelbrot.Sym.C42_lengths",
    "Mandelbrot.Sym.C42_repeated_witness"
   ],
   "note": "Every expression graph over +, -, *, negation, division by integers and opaque leaves, any number of inputs and outputs, any commutative ring. C42_repeated_witness: an output that is repeated or part of another output is counted twice; C42_unreached: an input that is no part of an output fails with an assertion."
  },
  {
   "property": "C43",
   "status": "proved",
   "theorems": [
    "Mandelbrot.Sym.C43_mul_base",
    "Mandelbrot.Sym.C43_sqr_base",
    "Mandelbrot.Sym.C43_mul_finishes",
    "Mandelbrot.Sym.C43_sqr_finishes",
    "Mandelbrot.Sym.C43_fft_base",
    "Mandelbrot.C43_inv_base",
    "Mandelbrot.C43_exp_base"
   ],
   "note": "mul_base and sqr_base: the generated lines, for every number of terms, every overlap of operands and result. Needs that parts with equal signatures have equal values; usable_mul/usable_sqr show it for the eight terms of the code with one choice of signatures. inv_base and exp_base: the generating series code is evaluated in the coefficient field, the printing of it is not modelled (C41 covers the printing of given expressions)."
  },
  {
   "property": "C44",
   "status": "proved",
   "theorems": [
    "Mandelbrot.Float.C44_two_sum",
    "Mandelbrot.Float.C44_two_sum_zero",
    "Mandelbrot.Float.C44_two_prod",
    "Mandelbrot.Float.C44_underflow_witness"
   ],
   "note": "Formats of every precision with gradual underflow, any rounding to nearest (ties arbitrary). Overflow is outside the model. two_prod needs that the product has no bit below the smallest number; C44_underflow_witness shows that the claim fails otherwise."
  },
  {
   "property": "C45",
   "status": "proved",
   "theorems": [
    "Mandelbrot.Float.C45_add",
    "Mandelbrot.Float.C45_add_assert",
    "Mandelbrot.Float.C45_add_error",
    "Mandelbrot.Float.C45_add_error_double",
    "Mandelbrot.Float.C45_neg",
    "Mandelbrot.Float.C45_sub",
    "Mandelbrot.Float.C45_sub_error_double",
    "Mandelbrot.Float.C45_ldexp",
    "Mandelbrot.Float.C45_twice_half",
    "Mandelbrot.Float.C45_mul",
    "Mandelbrot.Float.C45_mul_assert",
    "Mandelbrot.Float.C45_mul_loops",
    "Mandelbrot.Float.C45_mul_error",
    "Mandelbrot.Float.C45_mul_error_double"
   ],
   "note": "Exact accounting for +, -, * for every number of components, plus a priori error bounds (generic, and for double with at most four components). The bound for + and - is relative to the largest input component."
  },
  {
   "property": "C46",
   "status": "proved",
   "theorems": [
    "Mandelbrot.Float.C46_sign",
    "Mandelbrot.Float.C46_sign_normal",
    "Mandelbrot.Float.C46_abs",
    "Mandelbrot.Float.C46_bool",
    "Mandelbrot.Float.C46_eq",
    "Mandelbrot.Float.C46_eq_int",
    "Mandelbrot.Float.C46_to_double",
    "Mandelbrot.Float.C46_eq_witness",
    "Mandelbrot.Float.C46_sign_witness",
    "Mandelbrot.Float.C46_int64",
    "Mandelbrot.Float.C46_int64_ub"
   ],
   "note": "Normalised means every component is the rounding of what remains; sign, abs and bool also hold for components falling off by a unit in the last place. Witnesses show where the weaker invariant of the header is not enough. The integer conversion is exact below 2^63-512 and undefined above."
  },
  {
   "property": "C47",
   "status": "proved",
   "theorems": [
    "Mandelbrot.Float.C47_round_nearest",
    "Mandelbrot.Float.C47_lower_bound",
    "Mandelbrot.Float.C47_precisions",
    "Mandelbrot.Float.C47_nearest",
    "Mandelbrot.Float.C47_nearest_complex",
    "Mandelbrot.Float.C47_greedy_error",
    "Mandelbrot.Float.C47_infinite_witness",
    "Mandelbrot.Float.C47_pi",
    "Mandelbrot.Float.C47_sqrt",
    "Mandelbrot.Float.C47_sqrt_negative",
    "Mandelbrot.Float.C47_total"
   ],
   "note": "Arb operations are parameters with enclosure contracts (ArbOps.Sound, ArbFns.Sound, shown inhabited by intervals_sound and pointFns_sound). Results hold for finite values; an unbounded enclosure is returned at once (C47_infinite_witness); a negative denominator means 2^64 + b (C47_sqrt_negative)."
  },
  {
   "property": "C48",
   "status": "proved",
   "theorems": [
    "Mandelbrot.Float.C48_twiddle",
    "Mandelbrot.Float.C48_twiddle_ub",
    "Mandelbrot.Float.C48_defined",
    "Mandelbrot.Float.C48_twiddles",
    "Mandelbrot.Float.C48_ub"
   ],
   "note": "Every entry is the rounding of the true root of unity, whichever of the two ways computed it, and the returned count is exactly the number of fallbacks. Undefined cases: empty table, 2^31 or more entries, 2a beyond 64 bits (C48_ub, C48_twiddle_ub)."
  },
  {
   "property": "C49",
   "status": "partial",
   "theorems": [
    "Mandelbrot.Props.C49_contract_met",
    "Mandelbrot.Props.C49_add_shift_exact",
    "Mandelbrot.Props.C49_sub_shift_exact",
    "Mandelbrot.Props.C49_shift_beyond",
    "Mandelbrot.Props.C49_shift_negative",
    "Mandelbrot.Props.C49_add_shift",
    "Mandelbrot.Props.C49_sub_shift",
    "Mandelbrot.Props.C49_intersect_sub_exact",
    "Mandelbrot.Props.C49_intersect_sub",
    "Mandelbrot.Props.C49_mid",
    "Mandelbrot.Props.C49_overlaps",
    "Mandelbrot.Props.C49_overlaps_exact",
    "Mandelbrot.Props.C49_assert_low_zero_exact",
    "Mandelbrot.Props.C49_safe_mullow",
    "Mandelbrot.Props.C49_no_terms",
    "Mandelbrot.Props.C49_inv",
    "Mandelbrot.Props.C49_div",
    "Mandelbrot.Props.C49_log",
    "Mandelbrot.Props.C49_log_throws",
    "Mandelbrot.Props.C49_log_skip",
    "Mandelbrot.Props.C49_log1p",
    "Mandelbrot.Props.C49_log1p_throws",
    "Mandelbrot.Props.C49_log1p_shift",
    "Mandelbrot.Props.C49_log1p_shift_throws",
    "Mandelbrot.Props.C49_exp_skip",
    "Mandelbrot.Props.C49_exp_partial",
    "Mandelbrot.Props.C49_exp_witness",
    "Mandelbrot.Props.C49_expm1_shift_skip",
    "Mandelbrot.Props.C49_expm1_shift_partial",
    "Mandelbrot.Props.C49_expm1_shift_throws",
    "Mandelbrot.Props.C49_log1p_exp_shift_skip",
    "Mandelbrot.Props.C49_log1p_exp_shift_partial"
   ],
   "note": "Proved for shifted sums (all alias combinations, exact result), intersection (exact result and throw condition), midpoints, tests, reciprocal, quotient, log, log1p and log1p_shift. For exp, expm1_shift and log1p_exp_shift: proved with skip_refine; the code as it is only under a condition on means (C49_*_partial). The full claim for exp is false from the contract alone (C49_exp_witness)."
  },
  {
   "property": "C50",
   "status": "proved",
   "theorems": [
    "Mandelbrot.Props.C50_hooks_run",
    "Mandelbrot.Props.C50_shutdown",
    "Mandelbrot.Props.C50_shutdown_defined",
    "Mandelbrot.Props.C50_caches_emptied",
    "Mandelbrot.Props.C50_reusable"
   ],
   "note": ""
  },
  {
   "property": "C51",
   "status": "proved",
   "theorems": [
    "Verif.Print.C51_duplicated",
    "Verif.Print.C51_same_as_stdout",
    "Verif.Print.C51_lines",
    "Verif.Print.C51_no_log",
    "Verif.Print.C51_refused",
    "Verif.Print.C51_second",
    "Verif.Print.C51_die",
    "Verif.Print.C51_existing_kept",
    "Verif.Print.C51_nul_witness"
   ],
   "note": "All histories of tee, print, print_error and die. Buffering of standard output and write failures are outside the model. A NUL byte cuts a line (C51_nul_witness)."
  },
  {
   "property": "C52",
   "status": "proved",
   "theorems": [
    "Mandelbrot.Props.C52_history",
    "Mandelbrot.Props.C52_operands",
    "Mandelbrot.Props.C52_read",
    "Mandelbrot.Props.C52_read_good",
    "Mandelbrot.Props.C52_program",
    "Mandelbrot.Props.C52_setCounts_witness"
   ],
   "note": "set_counts is excluded (witness). Multiplication kernels are assumed to look only at their operands' cells."
  },
  {
   "property": "C53",
   "status": "proved",
   "theorems": [
    "Mandelbrot.Props.C53_step",
    "Mandelbrot.Props.C53_history",
    "Mandelbrot.Props.C53_bottcher_step"
   ],
   "note": "No assumption on the arithmetic or the multiplication kernels."
  },
  {
   "property": "C54",
   "status": "proved",
   "theorems": [
    "Mandelbrot.Sym.C54_collisions",
    "Mandelbrot.Sym.C54_rare"
   ],
   "note": "Schwartz-Zippel over the four proved primes."
  },
  {
   "property": "C55",
   "status": "partial",
   "theorems": [
    "Mandelbrot.Props.C55_contract_met",
    "Mandelbrot.Props.C55_linear_sub",
    "Mandelbrot.Props.C55_implicit",
    "Mandelbrot.Props.C55_implicit_overflow",
    "Mandelbrot.Props.C55_area",
    "Mandelbrot.Props.C55_areas",
    "Mandelbrot.Props.C55_final",
    "Mandelbrot.Props.C55_finishes",
    "Mandelbrot.Props.C55_overflow",
    "Mandelbrot.Props.C55_checked",
    "Mandelbrot.Props.C55_stops",
    "Mandelbrot.Props.C55_areas_partial",
    "Mandelbrot.Props.C55_run_partial",
    "Mandelbrot.Props.C55_conditions_met"
   ],
   "note": "Proved for skip_refine: every printed area encloses, final series, number of areas, the only errors. For the code as it is: given that exp and log1p_exp_shift enclose (C55_areas_partial); the check against the table (C55_checked) is proved for both."
  },
  {
   "property": "C56",
   "status": "proved",
   "theorems": [
    "Mandelbrot.Sym.C56_parse",
    "Mandelbrot.Sym.C56_value",
    "Mandelbrot.Sym.C56_built",
    "Mandelbrot.Sym.C56_code",
    "Mandelbrot.Sym.C56_double_negative",
    "Mandelbrot.Sym.C56_member_of_literal",
    "Mandelbrot.Sym.C56_literal_division"
   ],
   "note": "C56_parse, C56_value for single expressions; C56_built for all histories of operators; C56_code for blocks run as text. Constants enter as texts that meet TextOf (shown for sqrt(1/2))."
  },
  {
   "property": "C57",
   "status": "proved",
   "theorems": [
    "Mandelbrot.Props.C57_in_place",
    "Mandelbrot.Props.C57_history",
    "Mandelbrot.Props.C57_memory_safe",
    "Mandelbrot.Props.C57_alias_addresses",
    "Mandelbrot.Props.C57_self_assignment",
    "Mandelbrot.Props.C57_order_witness"
   ],
   "note": "C57_in_place: every reachable state and operation. Multiplication kernels read their operands before they store (FFT/Mem) and look only at their operands' cells; set_counts is left out. Self-assignment and shifted elementwise functions in any order are excluded, with witnesses."
  },
  {
   "property": "C58",
   "status": "proved",
   "theorems": [
    "Mandelbrot.Props.C58_mul",
    "Mandelbrot.Props.C58_mul_too_large",
    "Mandelbrot.Props.C58_sqr",
    "Mandelbrot.Props.C58_mul1p",
    "Mandelbrot.Props.C58_addmul",
    "Mandelbrot.Props.C58_inv",
    "Mandelbrot.Props.C58_div",
    "Mandelbrot.Props.C58_exp",
    "Mandelbrot.Props.C58_log",
    "Mandelbrot.Props.C58_log1p_exp",
    "Mandelbrot.Props.C58_areas",
    "Mandelbrot.Props.C58_area_values",
    "Mandelbrot.Props.C58_areas_decrease",
    "Mandelbrot.Props.C58_runs",
    "Mandelbrot.Props.C58_memory"
   ],
   "note": "Over the reals, without rounding. Composition of C09-C18, C23, C28-C30, C34 and C52 with the transforms as kernels."
  },
  {
   "property": "C59",
   "status": "proved",
   "theorems": [
    "Mandelbrot.Props.C59_convert",
    "Mandelbrot.Props.C59_convert_safe",
    "Mandelbrot.Props.C59_missing_witness",
    "Mandelbrot.Props.C59_exp",
    "Mandelbrot.Props.C59_exp_safe",
    "Mandelbrot.Props.C59_exp_trailing_witness"
   ],
   "note": "Files are a map from names to contents; number formats by the contract of C32. Two witnesses for the gaps."
  },
  {
   "property": "C60",
   "status": "proved",
   "theorems": [
    "Mandelbrot.Props.C60_accept",
    "Mandelbrot.Props.C60_unchecked",
    "Mandelbrot.Props.C60_nan",
    "Mandelbrot.Props.C60_step",
    "Mandelbrot.Props.C60_files",
    "Mandelbrot.Props.C60_endless",
    "Mandelbrot.Props.C60_k",
    "Mandelbrot.Props.C60_refused",
    "Mandelbrot.Props.C60_runs",
    "Mandelbrot.Props.C60_outcomes"
   ],
   "note": "No assumption about the arithmetic; the contract of balls (Arb) is a hypothesis that an example meets."
  },
  {
   "property": "C61",
   "status": "proved",
   "theorems": [
    "Mandelbrot.Props.C61_program_order",
    "Mandelbrot.Props.C61_ends",
    "Mandelbrot.Props.C61_reaches",
    "Mandelbrot.Props.C61_loop",
    "Mandelbrot.Props.C61_kernel",
    "Mandelbrot.Props.C61_stream_witness",
    "Mandelbrot.Props.C61_race_witness",
    "Mandelbrot.Props.C61_fft_mul",
    "Mandelbrot.Props.C61_fft_sqr",
    "Mandelbrot.Props.C61_fft_addmul",
    "Mandelbrot.Props.C61_fft_throws"
   ],
   "note": "The card is modelled by interleaving of single loads and stores and by ordered streams. Kernels covered: transforms, products, squares; the generic theorem covers every loop whose iterations store only cells that no other iteration accesses."
  },
  {
   "property": "C62",
   "status": "proved",
   "theorems": [
    "Mandelbrot.Props.C62_values",
    "Mandelbrot.Props.C62_once",
    "Mandelbrot.Props.C62_no_leak",
    "Mandelbrot.Props.C62_destroy",
    "Mandelbrot.Props.C62_malloc_witness"
   ],
   "note": "Programs are lists of operations on named objects and views; the allocator may fail at any allocation. Element types are one parameter."
  },
  {
   "property": "C63",
   "status": "proved",
   "theorems": [
    "Mandelbrot.Props.C63_mul",
    "Mandelbrot.Props.C63_sqr",
    "Mandelbrot.Props.C63_addmul",
    "Mandelbrot.Props.C63_refused",
    "Mandelbrot.Props.C63_exact",
    "Mandelbrot.Props.C63_bodies",
    "Mandelbrot.Props.C63_text_mul",
    "Mandelbrot.Props.C63_text_mul_linear",
    "Mandelbrot.Props.C63_text_sqr_linear",
    "Mandelbrot.Props.C63_text_addmul_linear"
   ],
   "note": "Standard model of rounding: no overflow or underflow. C63_mul, C63_sqr and C63_addmul take any accurate loop bodies; the C63_text theorems take the bodies as written in the generator, where the order of sums in the generated code may differ."
  },
  {
   "property": "C64",
   "status": "proved",
   "theorems": [
    "Mandelbrot.Float.C64_inv",
    "Mandelbrot.Float.C64_mul",
    "Mandelbrot.Float.C64_div",
    "Mandelbrot.Float.C64_div_graded",
    "Mandelbrot.Float.C64_mul_graded",
    "Mandelbrot.Float.C64_div_error",
    "Mandelbrot.Float.C64_div_zero",
    "Mandelbrot.Float.C64_div_int",
    "Mandelbrot.Float.C64_div_int_ub"
   ],
   "note": "Any rounding to nearest of double with unbounded exponents upwards: overflow is not represented, a divisor with leading component zero is excluded."
  },
  {
   "property": "C65",
   "status": "proved",
   "theorems": [
    "Mandelbrot.Props.C65_area",
    "Mandelbrot.Props.C65_upper",
    "Mandelbrot.Props.C65_converges",
    "Mandelbrot.Props.C65_map",
    "Mandelbrot.Props.C65_program",
    "Mandelbrot.Props.C65_intervals",
    "Mandelbrot.Props.C65_intervals_partial"
   ],
   "note": "C65_intervals is for the interval program without its final refinements; C65_intervals_partial is for the code as it is and assumes that the refinements enclose, as C55 does. Everything else is unconditional; kernels compute in real numbers, balls are any enclosing arithmetic."
  },
  {
   "property": "C66",
   "status": "proved",
   "theorems": [
    "Mandelbrot.Props.C66_verdict",
    "Mandelbrot.Props.C66_exit_zero",
    "Mandelbrot.Props.C66_unknown_names_witness",
    "Mandelbrot.Props.C66_ran_witness",
    "Mandelbrot.Props.C66_register",
    "Mandelbrot.Props.C66_throw",
    "Mandelbrot.Props.C66_throw_own_witness",
    "Mandelbrot.Props.C66_asserts",
    "Mandelbrot.Props.C66_error",
    "Mandelbrot.Props.C66_error_zero",
    "Mandelbrot.Props.C66_error_nan_witness",
    "Mandelbrot.Props.C66_error_poly"
   ],
   "note": "Tests are arbitrary functions on a state; undefined behaviour inside a test is not represented. The distance of series is on doubles with NaN and infinities, as in C60."
  },
  {
   "property": "C67",
   "status": "proved",
   "theorems": [
    "Mandelbrot.Props.C67_over",
    "Mandelbrot.Props.C67_over_assoc",
    "Mandelbrot.Props.C67_over_clear",
    "Mandelbrot.Props.C67_average",
    "Mandelbrot.Props.C67_make",
    "Mandelbrot.Props.C67_render",
    "Mandelbrot.Props.C67_circle",
    "Mandelbrot.Props.C67_gaussian",
    "Mandelbrot.Props.C67_border",
    "Mandelbrot.Props.C67_draw",
    "Mandelbrot.Props.C67_paint",
    "Mandelbrot.Props.C67_byte",
    "Mandelbrot.Props.C67_write",
    "Mandelbrot.Props.C67_discs",
    "Mandelbrot.Props.C67_logo",
    "Mandelbrot.Props.C67_junk_witness",
    "Mandelbrot.Props.C67_logo_series"
   ],
   "note": "Real numbers stand for doubles; conversions to int are checked. C67_junk_witness: the colours are not initialized, so C67_logo assumes that the memory held colours."
  },
  {
   "property": "C68",
   "status": "proved",
   "theorems": [
    "Mandelbrot.Props.C68_rows",
    "Mandelbrot.Props.C68_table",
    "Mandelbrot.Props.C68_terms",
    "Mandelbrot.Props.C68_sharp",
    "Mandelbrot.Props.C68_accept",
    "Mandelbrot.Props.C68_files",
    "Mandelbrot.Props.C68_arb",
    "Mandelbrot.Props.C68_arb_accept",
    "Mandelbrot.Props.C68_arb_printed",
    "Mandelbrot.Props.C68_area"
   ],
   "note": "The entries are decided by the kernel from a proved criterion (Known.fits_sound, for all precisions and sizes). How arb_set_str reads a string is a hypothesis of the theorems about the programs."
  },
  {
   "property": "C69",
   "status": "proved",
   "theorems": [
    "Mandelbrot.Props.C69_values",
    "Mandelbrot.Props.C69_released",
    "Mandelbrot.Props.C69_apart",
    "Mandelbrot.Props.C69_print_leaks_witness",
    "Mandelbrot.Props.C69_self_move_witness"
   ],
   "note": "Assumes that zero needs no block, as in the library. One block stands for all memory of a number."
  },
  {
   "property": "C70",
   "status": "proved",
   "theorems": [
    "Mandelbrot.Sym.C70_inv_base",
    "Mandelbrot.Sym.C70_exp_base",
    "Mandelbrot.Sym.C70_inv_link",
    "Mandelbrot.Sym.C70_exp_link",
    "Mandelbrot.Sym.C70_in_place_witness",
    "Mandelbrot.Sym.C70_ten_terms_witness"
   ],
   "note": "For the values at which parts of the expressions with equal signatures are equal; an example shows this for generic signatures. The condition excludes a constant term zero for the inverse."
  },
  {
   "property": "C71",
   "status": "proved",
   "theorems": [
    "Mandelbrot.Sym.C71_operator",
    "Mandelbrot.Sym.C71_finishes",
    "Mandelbrot.Sym.C71_add_accuracy",
    "Mandelbrot.Sym.C71_sub_accuracy",
    "Mandelbrot.Sym.C71_mul_accuracy"
   ],
   "note": "For the values at which parts of the expressions with equal signatures are equal; examples show this for a hash and generic signatures with two and three components. C71_finishes: the generators end for every size."
  },
  {
   "property": "C72",
   "status": "proved",
   "theorems": [
    "Mandelbrot.Sym.C72_levels_back_iteration",
    "Mandelbrot.Sym.C72_levels_back",
    "Mandelbrot.Sym.C72_last_iteration",
    "Mandelbrot.Sym.C72_last",
    "Mandelbrot.Sym.C72_last_small",
    "Mandelbrot.Sym.C72_levels_finishes",
    "Mandelbrot.Sym.C72_levels_only",
    "Mandelbrot.Sym.C72_first_finishes",
    "Mandelbrot.Sym.C72_levels_back_finishes",
    "Mandelbrot.Sym.C72_last_finishes",
    "Mandelbrot.Sym.C72_levels_iteration",
    "Mandelbrot.Sym.C72_levels",
    "Mandelbrot.Sym.C72_first_iteration",
    "Mandelbrot.Sym.C72_first",
    "Mandelbrot.Sym.C72_first_small"
   ],
   "note": "Props/FFTFinish: the forward generators finish for one, two and three levels, and write lines if the parts of the results are told apart by their signatures; the transposed ones finish if in addition the circuit is one that gradient takes. That equal signatures mean equal values, and for the transposed functions that the circuit is linear with parts of different signatures and that no result mentions its inputs, are hypotheses. They are checked for a hash and generic signatures in Props/FFTGenCases (one and three levels forward), Props/FFTBackCases (one and two levels backward) and Props/FFTFinishCases. The arithmetic is exact; C63 has the rounding."
  },
  {
   "property": "C73",
   "status": "proved",
   "theorems": [
    "Mandelbrot.Sym.C73_counts",
    "Mandelbrot.Sym.C73_succeeds",
    "Mandelbrot.Sym.C73_text",
    "Mandelbrot.Sym.C73_comment"
   ],
   "note": "Counts are unbounded here, int in the code. Expressions a caller writes without compute (indices, lines of now) are not counted by the code and are not in the model's blocks."
  },
  {
   "property": "C74",
   "status": "proved",
   "theorems": [
    "Mandelbrot.Props.C74_exponent",
    "Mandelbrot.Props.C74_valid_falls",
    "Mandelbrot.Props.C74_random",
    "Mandelbrot.Props.C74_random_expansion",
    "Mandelbrot.Props.C74_zero_witness",
    "Mandelbrot.Props.C74_near"
   ],
   "note": "Doubles have no largest number here. The sizes of the draws and exponents are hypotheses; C74_random_expansion has those of the standard library. A zero draw is excluded, with C74_zero_witness for it."
  },
  {
   "property": "C75",
   "status": "proved",
   "theorems": [
    "Mandelbrot.Props.C75_exec",
    "Mandelbrot.Props.C75_no_file",
    "Mandelbrot.Props.C75_scope",
    "Mandelbrot.Props.C75_file",
    "Mandelbrot.Props.C75_one_file",
    "Mandelbrot.Props.C75_kind",
    "Mandelbrot.Props.C75_main",
    "Mandelbrot.Props.C75_unwritable_witness"
   ],
   "note": "The bodies of the generators are arbitrary sequences of lines, scopes and exceptions here; what the lines say is C70 to C73. Texts that contain newlines are one line here."
  },
  {
   "property": "C76",
   "status": "proved",
   "theorems": [
    "Mandelbrot.Props.C76_refines",
    "Mandelbrot.Props.C76_copy",
    "Mandelbrot.Props.C76_ends",
    "Mandelbrot.Props.C76_streams_witness",
    "Mandelbrot.Props.C76_sync_witness",
    "Mandelbrot.Props.C76_sync",
    "Mandelbrot.Props.C76_to_device",
    "Mandelbrot.Props.C76_to_device_assert",
    "Mandelbrot.Props.C76_host_copy",
    "Mandelbrot.Props.C76_round_trip",
    "Mandelbrot.Props.C76_spans",
    "Mandelbrot.Props.C76_blocks"
   ],
   "note": "The ordering rules of CUDA streams are assumptions of the model, named in its header. Kernels are arbitrary functions of the device memory and run as one step each. Failures of the CUDA library itself are left out."
  },
  {
   "property": "C77",
   "status": "proved",
   "theorems": [
    "Mandelbrot.Props.C77_arb",
    "Mandelbrot.Props.C77_arb_exact",
    "Mandelbrot.Props.C77_exact",
    "Mandelbrot.Props.C77_stats",
    "Mandelbrot.Props.C77_stats_tight",
    "Mandelbrot.Props.C77_reports",
    "Mandelbrot.Props.C77_order",
    "Mandelbrot.Props.C77_report",
    "Mandelbrot.Props.C77_once",
    "Mandelbrot.Props.C77_twice",
    "Mandelbrot.Props.C77_table"
   ],
   "note": "The Arb library is a hypothesis (Promise); components of expansions are finite."
  },
  {
   "property": "C78",
   "status": "proved",
   "theorems": [
    "Mandelbrot.Props.C78_format",
    "Mandelbrot.Props.C78_abort",
    "Mandelbrot.Props.C78_release",
    "Mandelbrot.Props.C78_unchanged",
    "Mandelbrot.Props.C78_full",
    "Mandelbrot.Props.C78_named",
    "Mandelbrot.Props.C78_assertion",
    "Mandelbrot.Props.C78_percent_witness"
   ],
   "note": "tinyformat is modelled from its documented behaviour; messages contain no NUL, as they are C strings."
  },
  {
   "property": "C79",
   "status": "proved",
   "theorems": [
    "Mandelbrot.Props.C79_file",
    "Mandelbrot.Props.C79_dir",
    "Mandelbrot.Props.C79_clean",
    "Mandelbrot.Props.C79_exception",
    "Mandelbrot.Props.C79_descriptors",
    "Mandelbrot.Props.C79_leak_witness"
   ],
   "note": "The answers of the system (new paths) are a hypothesis."
  },
  {
   "property": "C80",
   "status": "proved",
   "theorems": [
    "Mandelbrot.Props.C80_bytes",
    "Mandelbrot.Props.C80_digest",
    "Mandelbrot.Props.C80_distinct",
    "Mandelbrot.Props.C80_long_witness",
    "Mandelbrot.Props.C80_unreduced_witness"
   ],
   "note": "SHA-256 is any function with 32-byte results; absence of a collision is a hypothesis of C80_distinct."
  },
  {
   "property": "C81",
   "status": "proved",
   "theorems": [
    "Mandelbrot.Props.C81_near",
    "Mandelbrot.Props.C81_accepted",
    "Mandelbrot.Props.C81_halves",
    "Mandelbrot.Props.C81_table",
    "Mandelbrot.Props.C81_lost_witness"
   ],
   "note": "A minus sign in front, which the code accepts, is left out of the model; exponents, a plus and white space are refused by the last assertion."
  }
 ]
}