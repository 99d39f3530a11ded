{"id": "C01", "title": "partition_loop splits a loop exactly", "statement": "For every steps >= 0 and threads >= 1, the half-open ranges returned for thread = 0..threads-1 are consecutive, start at 0, end at steps, and their lengths differ by at most one; hence every index in [0,steps) belongs to exactly one thread.", "quantifier": "all step counts, all thread counts, all thread numbers", "why_tests_cant": "Tests try a handful of (steps, threads) pairs; the remainder arithmetic must be right for all of them.", "anchors": ["loops.cc:partition_loop", "loops.h"]}
{"id": "C02", "title": "map_reduce equals the sequential fold for every thread count and schedule", "statement": "If reduce(reduce(y,a),b) = reduce(y,reduce(a,b)), then after map_reduce(y, reduce, map, n) the variable y holds exactly what the loop 'for i in 0..n-1: reduce(y, map(i))' leaves, for every number of OpenMP threads and every interleaving of their steps; commutativity is not needed.", "quantifier": "all n, all thread counts, all interleavings of thread steps, all associative reductions", "why_tests_cant": "A test run exercises one schedule of one machine; the claim is about all interleavings.", "anchors": ["loops.h:map_reduce", "loops.cc:partition_loop"]}
{"id": "C03", "title": "map_reduce never uses a dangling or shared partial slot", "statement": "In every interleaving, the slot a thread obtained after the critical-section resize stays at the same address until the thread finishes, lies inside the vector, and no two threads write the same slot.", "quantifier": "all interleavings, all thread counts, all n", "why_tests_cant": "A data race or an invalidated reference only shows on rare schedules.", "anchors": ["loops.h:map_reduce"]}
{"id": "C04", "title": "Loop kernels visit each index once and host and device agree", "statement": "For a loop of n < 2^31 iterations (and n + total threads < 2^31 on device) the grid-stride loop visits every index 0..n-1 exactly once over all device threads, for every grid shape, and when different iterations touch different cells the final memory equals that of the sequential host loop whatever order the iterations run in. For n >= 2^31 the loop size is truncated to 32 bits and the claim fails.", "quantifier": "all loop sizes, all grid shapes, all execution orders", "why_tests_cant": "Device schedules cannot be enumerated, and sizes near 2^31 do not fit in a unit test.", "anchors": ["loops.h:GRID_STRIDE_LOOP", "loops.h:DEF_LOOP", "loops.h:grid_stride_loop_size"]}
{"id": "C05", "title": "Series counts stay consistent over every history", "statement": "After any sequence of public Series operations (construction, assignment, set_scalar, set_unknown, set_known, reduce_known, set_counts with nonnegative arguments, low, high, copy, +=, -=, high_add, high_sub, mul, sqr, mul1p, ...) that did not throw, 0 <= nonzero() <= min(known(), limit()). With a negative known argument set_counts accepts values that break this.", "quantifier": "all histories of operations on all series", "why_tests_cant": "Tests run fixed short histories.", "anchors": ["series.h:Series", "series.h:Series::set_counts", "series.h:Series::set_known"]}
{"id": "C06", "title": "low and high views denote truncation and shift", "statement": "x.low(n) has known() = min(max(n,0), x.known()) and the same coefficients below it; x.high(n) has known() = max(x.known()-n,0) and coefficient i equal to coefficient i+n of x; neither reads past the stored terms, for every n including negative n for low, and a composition of views denotes the composition of truncations and shifts.", "quantifier": "all series, all n, all compositions of views", "why_tests_cant": "Infinitely many nested views; boundary cases at nonzero() and known().", "anchors": ["series.h:Series::low", "series.h:Series::high", "series.h:Series::low_span", "series.h:Series::high_span"]}
{"id": "C07", "title": "Assignment and copy reproduce the value and fail cleanly", "statement": "x = y leaves x with y's known(), nonzero() and coefficients and leaves y unchanged; it throws exactly when x cannot hold y.nonzero() terms; y.copy(limit) does the same into fresh storage; swapping ownership does not lose or duplicate coefficients.", "quantifier": "all series, all limits, all prior contents of the destination", "why_tests_cant": "Destination garbage and all size relations must be covered.", "anchors": ["series.h:Series::operator=", "series.h:Series::copy", "series.h:Series::swap"]}
{"id": "C08", "title": "Shifted add and subtract are exact and local", "statement": "y.high_add_ldexp(s, b, x) makes y = y + z^s 2^b x with known = min(y.known, x.known + s); y.high_add, y.high_sub, += and -= are the special cases; terms of y below s keep their value; the contents of storage beyond nonzero() never influence the result.", "quantifier": "all series, shifts, exponents, storage garbage", "why_tests_cant": "Result must hold for every relation between s, both nonzero counts and both known counts.", "anchors": ["series.cc:high_addsub_ldexp", "series.h:Series::high_add", "series.h:Series::high_sub"]}
{"id": "C09", "title": "mul is the truncated product", "statement": "For operands with nonzero() >= 1, z = mul(x,y) has known = min(x.known,y.known) and coefficient k equal to sum_{i+j=k} x_i y_j for all k < known, provided z can hold the terms; z may be x or y. If an operand has known() >= 1 but nonzero() = 0 and the other has at least two terms, mul throws instead of returning zero.", "quantifier": "all series lengths and values, exact arithmetic", "why_tests_cant": "Correctness over all lengths crosses the base-case and FFT paths; the zero-operand failure is a corner no test hits.", "anchors": ["series.h:mul", "fft.cc:fft_mul"]}
{"id": "C10", "title": "sqr is the truncated square", "statement": "y = sqr(x) has known = x.known and coefficients of x*x below it, for every x including the symbolic zero, and y may be x.", "quantifier": "all series lengths and values, exact arithmetic", "why_tests_cant": "All lengths, base-case and FFT paths.", "anchors": ["series.h:sqr", "fft.cc:fft_sqr"]}
{"id": "C11", "title": "mul1p computes x(1 + z^s y)", "statement": "For operands with nonzero() >= 1 and s >= 1, z = mul1p(x,y,s) is x(1+z^s y) to known = min(x.known, y.known+s), also when z is x or y. With nonzero() = 0 in one operand it can throw.", "quantifier": "all series, all shifts, exact arithmetic", "why_tests_cant": "All relations between s and the counts.", "anchors": ["series.h:mul1p", "series.cc:mul1p_middle", "fft.cc:fft_addmul"]}
{"id": "C12", "title": "inv returns the reciprocal to full order", "statement": "For x with x[0] != 0 and at least one stored term, y = inv(x) has known = x.known and x*y = 1 to that order; it throws only when y is too small, aliased, or x has no stored term.", "quantifier": "all series of every length, exact arithmetic over any field of characteristic 0", "why_tests_cant": "Newton steps, base case and all lengths; tests only sample lengths and floats.", "anchors": ["series.h:inv", "series.h:newton_iterate", "codelets.cc:series_bases"]}
{"id": "C13", "title": "div returns the quotient to full order", "statement": "For b with b[0] != 0, y = div(a,b) satisfies b*y = a to order min(a.known, b.known).", "quantifier": "all series of every length, exact arithmetic", "why_tests_cant": "All lengths and count relations.", "anchors": ["series.h:div"]}
{"id": "C14", "title": "inv1p and div1p are exact", "statement": "y = inv1p(x,s) satisfies (1 + z^s x)(1 + z^s y) = 1 to order x.known + s, and y = div1p(a,b,s) satisfies (1 + z^s b) y = a to order min(a.known, b.known + s), for s >= 1 and operands with nonzero() >= 1.", "quantifier": "all series, all shifts, exact arithmetic", "why_tests_cant": "All lengths and shifts.", "anchors": ["series.h:inv1p", "series.h:div1p"]}
{"id": "C15", "title": "exp returns the exponential to full order", "statement": "For x with x[0] = 0, y = exp(x) satisfies y[0] = 1 and y' = x' y to order x.known.", "quantifier": "all series of every length, exact arithmetic", "why_tests_cant": "Newton iteration and base case at all lengths.", "anchors": ["series.h:exp", "codelets.cc:series_bases"]}
{"id": "C16", "title": "log and log1p return the logarithm to full order", "statement": "For x[0] = 1, y = log(x) satisfies y[0] = 0 and x y' = x' to order x.known; y = log1p(x,s) satisfies z^s y = log(1 + z^s x) to order x.known + s.", "quantifier": "all series, all shifts, exact arithmetic", "why_tests_cant": "All lengths and shifts.", "anchors": ["series.h:log", "series.h:log1p"]}
{"id": "C17", "title": "expm1 is exact", "statement": "y = expm1(x,a,s) with a in {1,-1}, s >= 1 satisfies 1 + z^s y = exp(a z^s x) to order x.known + s.", "quantifier": "all series, all shifts, both signs, exact arithmetic", "why_tests_cant": "All lengths and shifts.", "anchors": ["series.h:expm1"]}
{"id": "C18", "title": "log1p_exp is exact", "statement": "y = log1p_exp(x,s) with s >= 1 satisfies z^s y = log(1 + z^s exp(x)) to order x.known + s.", "quantifier": "all series, all shifts, exact arithmetic", "why_tests_cant": "All lengths and shifts.", "anchors": ["series.h:log1p_exp"]}
{"id": "C19", "title": "derivative_shift, integral_shift and ldexp", "statement": "derivative_shift(x,s) is z^(1-s) d/dz (z^s x), integral_shift is its inverse, ldexp(x,b) multiplies by 2^b; integral_shift(derivative_shift(x,s),s) = x for s >= 1 and for s = 0 when x[0] = 0; each works in place.", "quantifier": "all series, all shifts, exact arithmetic", "why_tests_cant": "All lengths and shifts.", "anchors": ["series.h:derivative_shift", "series.h:integral_shift", "series.h:ldexp"]}
{"id": "C20", "title": "newton_iterate runs the right schedule", "statement": "For 1 <= n0 <= n, newton_iterate(n0, n, step) calls step with target sizes ending in n, each size m at most twice the size m0 known correct before it, sizes strictly increasing, each executed twice (extend then refine), it terminates, and after the last call exactly n terms have been produced; the number of sizes is the least possible.", "quantifier": "all n0 and n", "why_tests_cant": "Unbounded sizes.", "anchors": ["series.h:newton_iterate", "series.h:newton_steps"]}
{"id": "C21", "title": "fft computes the discrete Fourier transform and ifft inverts it", "statement": "With exact twiddles, fft(y,x) leaves the DFT of the zero-padded input, for every power-of-two size, and ifft(x, y) returns n times the original input; rfft and irfft likewise.", "quantifier": "all power-of-two sizes, all inputs", "why_tests_cant": "All sizes; radix handling depends on the size mod 3.", "anchors": ["fft.cc:fft", "fft.cc:ifft", "fft.cc:rfft", "fft.cc:irfft", "codelets.cc:butterflies"]}
{"id": "C22", "title": "Shifted real FFT evaluates at the odd roots and its transpose inverts it", "statement": "srfft_scramble(y,x) leaves at each slot the value of the input polynomial at one odd 2n-th root of unity, one from each conjugate pair; isrfft_scramble(x, srfft_scramble(x)) = (n/2) x; both for every power of two n and inputs shorter than n.", "quantifier": "all power-of-two sizes, all inputs", "why_tests_cant": "All sizes and radix mixes.", "anchors": ["fft.cc:srfft_scramble", "fft.cc:isrfft_scramble", "codelets.cc:butterfly_0"]}
{"id": "C23", "title": "fft_mul is polynomial multiplication", "statement": "fft_mul(z,x,y) leaves in z the first z.size() coefficients of the product of x and y for all sizes with z.size() <= x.size()+y.size()-1 and x,y no longer than z needs; fft_sqr likewise; the size chosen never lets the cyclic wrap-around reach a returned coefficient; z may be x or y.", "quantifier": "all sizes, all coefficient values, all permitted aliasings, exact arithmetic", "why_tests_cant": "All sizes; wrap-around bugs appear only at boundary lengths.", "anchors": ["fft.cc:fft_mul", "fft.cc:fft_sqr", "fft.cc:fft_addmul", "codelets.cc:mul_bases"]}
{"id": "C24", "title": "Twiddle tables hold the stated roots of unity", "statement": "For every table exponent s and every index j the value read back from a slice is exp(2 pi i j / 2^(s+1)), although only an eighth of the circle is stored, and the large-table product form gives the same value.", "quantifier": "all table sizes, all indices", "why_tests_cant": "Symmetry reduction has many boundary cases at each size.", "anchors": ["fft.cc:TwiddleSlice", "fft.cc:BigTwiddleSlice", "fft.cc:twiddle_slice"]}
{"id": "C25", "title": "Twiddle cache is transparent", "statement": "For every history of slice, big_slice and clear calls, each request returns the same table contents as a fresh computation, and pointers handed out stay valid until the next clear.", "quantifier": "all histories of cache calls", "why_tests_cant": "Histories are unbounded.", "anchors": ["fft.cc:FullTwiddle", "singleton.h", "shutdown.cc"]}
{"id": "C26", "title": "Bit reversal and shifted permutations are permutations", "statement": "For every power of two n >= 2, bitrev is an involution on [0,n), bitrev_neg reverses negation modulo n, and the in-place shifted permutation maps are mutually inverse, so no element is lost or duplicated.", "quantifier": "all power-of-two sizes and indices", "why_tests_cant": "All sizes; n = 1 shifts a 64-bit word by 64.", "anchors": ["fft.cc:bitrev", "fft.cc:bitrev_neg", "fft.cc:shifted_permute", "bit.h"]}
{"id": "C27", "title": "escape and implicit compute the Mandelbrot recurrence", "statement": "For g with g[0] = 0, implicit(F,..,k,g) returns F such that exp(2^k F) = Q_k where f = exp(g), Q_0 = f, Q_i = Q_{i-1}^2 + z^(2^i - 1) f, to order 2^k; that is z^(2^k) times the k-th Mandelbrot iterate at c = f/z.", "quantifier": "all k, all g, exact arithmetic", "why_tests_cant": "All k and all power series.", "anchors": ["area.cc:escape", "area.cc:implicit"]}
{"id": "C28", "title": "bottcher_step doubles the number of correct terms", "statement": "Starting from a g correct to 2^(k-1) terms, bottcher_step(k) leaves g with known = 2^k and Q_k(exp g) = 1 to order 2^k, and never changes the terms already present; by induction this holds after every number of steps from bottcher_base.", "quantifier": "all k, exact arithmetic", "why_tests_cant": "Induction over an unbounded number of doublings.", "anchors": ["area.cc:bottcher_step", "area.cc:bottcher_base"]}
{"id": "C29", "title": "The Boettcher series is unique and prefixes agree", "statement": "For each k there is exactly one g mod z^(2^k) with g[0] = 0 and Q_k(exp g) = 1 mod z^(2^k), and the solution for k+1 reduces to the solution for k; so results for different max_k agree on common terms.", "quantifier": "all k", "why_tests_cant": "Statement about all series and all k.", "anchors": ["area.cc:bottcher_step", "mandelbrot.cc:areas"]}
{"id": "C30", "title": "area is the Gronwall sum and decreases", "statement": "area(f) computes pi * sum_i (1-i) f_i^2 over the stored terms in exact arithmetic whatever the thread count, and adding more terms never increases it.", "quantifier": "all series, all thread counts, exact arithmetic", "why_tests_cant": "All lengths and schedules.", "anchors": ["area.cc:area", "loops.h:map_reduce"]}
{"id": "C31", "title": "known_to_k recognises exactly the powers of two", "statement": "known_to_k(n) returns k iff n = 2^k, and throws for other positive n; for n = 0 the shift amount is 64 and the behaviour is undefined.", "quantifier": "all 64-bit values", "why_tests_cant": "2^64 inputs.", "anchors": ["area.cc:known_to_k"]}
{"id": "C32", "title": "write_series then read_series is the identity", "statement": "For every series and every list of single-line comments that do not look like a count header, reading the written file returns the same known(), nonzero() and coefficients and the left-trimmed comments, provided the number formatter round-trips.", "quantifier": "all series, all comment lists, all batch sizes", "why_tests_cant": "All lengths and all texts.", "anchors": ["series.cc:write_series", "series.cc:read_series"]}
{"id": "C33", "title": "Incomplete files are detected except in stated cases", "statement": "If writing stops at any point before the last coefficient line has begun, reading the file throws, except that a file cut before the nonzero header is complete is silently read as an empty series; a cut inside the last number is silently read as a different number.", "quantifier": "all crash points in the output file", "why_tests_cant": "Every byte position of every file.", "anchors": ["series.cc:write_series", "series.cc:read_series", "area.cc:read_bottcher"]}
{"id": "C34", "title": "Resuming equals continuing", "statement": "Running to k1, writing, reading back in a new process and running on to k2 yields the same series and the same files as running to k2 directly, for any arithmetic, provided the number formatter round-trips.", "quantifier": "all k1 <= k2, all arithmetic, all crash points between files", "why_tests_cant": "All split points.", "anchors": ["mandelbrot.cc:areas", "mandelbrot.cc:resume", "area.cc:read_bottcher", "area.cc:write_bottcher"]}
{"id": "C35", "title": "npy headers are well formed", "statement": "numpy_header produces a header whose total length is a multiple of 16, whose length field is the number of bytes after the first ten, that ends in newline, and from which the shape and type can be read back; the write_series_npy file has exactly header + nonzero()*itemsize bytes.", "quantifier": "all shapes and counts", "why_tests_cant": "All shapes.", "anchors": ["numpy.cc:numpy_header", "series.cc:write_series_npy"]}
{"id": "C36", "title": "Signature arithmetic is a ring homomorphism", "statement": "On canonical representatives the 64-bit modular add, sub, neg and mul equal the operations of Z/p and stay canonical for every odd p < 2^64; Sig(a) of a C++ int is its residue; expressions over Sig agree with expressions over the integers.", "quantifier": "all moduli and all operands", "why_tests_cant": "2^128 operand pairs per modulus.", "anchors": ["sig.h:Fp", "sig.h:Sig"]}
{"id": "C37", "title": "Modular inverse, power and square root are correct", "statement": "inv returns the inverse whenever gcd(a,p) = 1, pow is exponentiation, and for prime p sqrt returns a root of every quadratic residue, the same one for all random choices.", "quantifier": "all primes, all operands, all random choices", "why_tests_cant": "Random choices and 2^64 operands.", "anchors": ["sig.cc:inv", "sig.cc:pow", "sig.cc:sqrt", "sig.cc:has_sqrt"]}
{"id": "C38", "title": "Primality test accepts every prime", "statement": "is_prime(n) returns true for every prime 2 < n < 2^64, and each modulus that passes all the field filters used for signatures is odd with -1 a non-residue if it is prime.", "quantifier": "all primes below 2^64", "why_tests_cant": "2^64 inputs.", "anchors": ["sig.cc:is_sprp", "sig.cc:is_prime", "sig.cc:fields"]}
{"id": "C39", "title": "Symbolic simplification preserves value", "statement": "Every expression returned by the overloaded operators on Exp has the value of the unsimplified operation at every assignment of the variables, in any commutative ring, for every sequence of operations.", "quantifier": "all expressions, all assignments, all commutative rings", "why_tests_cant": "Unbounded expression trees.", "anchors": ["exp.cc", "exp.h:Exp"]}
{"id": "C40", "title": "Common subexpression elimination preserves value", "statement": "With exact signatures, if no two different expressions met so far have equal signatures then for every history of operations the returned expression has the value of the requested one; the stored signature of an expression always is its value at the random point. With inexact signatures +, - and * of the same operands get the same signature and are confused.", "quantifier": "all histories of expression construction", "why_tests_cant": "Unbounded histories.", "anchors": ["exp.cc:CSE", "exp.cc:operator+", "sig.cc:arbitrary"]}
{"id": "C41", "title": "Generated straight-line code computes the expressions", "statement": "The statements emitted for a list of expressions define every temporary once and before use, and running them gives each expression's value, for every expression graph.", "quantifier": "all expression graphs", "why_tests_cant": "Unbounded graphs.", "anchors": ["codelets.cc:Block"]}
{"id": "C42", "title": "Symbolic transpose is the transpose", "statement": "For outputs linear in the inputs, gradient(xs, ys, dys) returns expressions with sum_i x_i * out_i = sum_k y_k * dys_k at every assignment, so an inverse butterfly generated from a forward butterfly is its transpose.", "quantifier": "all linear expression graphs", "why_tests_cant": "Unbounded graphs.", "anchors": ["codelets.cc:gradient"]}
{"id": "C43", "title": "Base-case codelets are exact", "statement": "mul_base, sqr_base for sizes up to 8 and the inv and exp base cases up to 5 terms produce the exact truncated results for every split of operand lengths, missing terms read as zero.", "quantifier": "all operand values and lengths", "why_tests_cant": "All coefficient values.", "anchors": ["codelets.cc:mul_bases", "codelets.cc:series_bases"]}
{"id": "C44", "title": "two_sum and two_prod are error free", "statement": "In round-to-nearest binary floating point of any precision without overflow or underflow, two_sum(a,b) returns (x,y) with x = round(a+b) and x + y = a + b exactly, and two_prod returns x = round(a b) and x + y = a b exactly.", "quantifier": "all pairs of floating point numbers, all precisions", "why_tests_cant": "2^128 pairs.", "anchors": ["codelets.cc:two_sum", "codelets.cc:two_prod"]}
{"id": "C45", "title": "Expansion sums lose only the discarded tail", "statement": "Expansion addition, subtraction: the exact sum of inputs equals the exact sum of the returned components plus the discarded components, for every number of components; -x, x*2^k are exact.", "quantifier": "all operands, all component counts", "why_tests_cant": "2^256 operand pairs.", "anchors": ["codelets.cc:collange_add", "expansion.h"]}
{"id": "C46", "title": "Expansion comparison, sign, abs and integer conversion", "statement": "On normalised expansions sign is the sign of the exact value, abs the absolute value, == equality of values, bool nonzeroness, and Expansion<2>(a) represents the integer a exactly for every 64-bit a other than those rounding to 2^63.", "quantifier": "all expansions and all integers", "why_tests_cant": "2^64 and 2^128 inputs.", "anchors": ["expansion.cc:sign", "expansion.cc:abs", "expansion.h:Expansion"]}
{"id": "C47", "title": "nearest returns the correctly rounded value", "statement": "If the supplied enclosure contains the true value at every precision, then whatever nearest returns is the round-to-nearest value of the true number (componentwise greedy rounding for expansions), at whatever precision it stops.", "quantifier": "all real values, all enclosure sequences, all precisions", "why_tests_cant": "Real values cannot be enumerated.", "anchors": ["nearest.h:nearest", "nearest.cc:round_nearest"]}
{"id": "C48", "title": "nearest_twiddles fills every entry with the right root", "statement": "For every n and slice, entry i is a rounding of exp(2 pi i (offset+i)/n) obtained as product of two table entries whose indices recombine to i, with no index out of range.", "quantifier": "all sizes and slices", "why_tests_cant": "All sizes.", "anchors": ["nearest.cc:nearest_twiddles"]}
{"id": "C49", "title": "Interval polynomial routines enclose the true series", "statement": "If the input polynomial encloses a real power series then the outputs of poly_add_shift_series, poly_sub_shift_series, poly_intersect_sub and the refinement routines enclose the corresponding exact series, given that the underlying Arb operations enclose.", "quantifier": "all real series, all enclosures, all precisions", "why_tests_cant": "Real coefficients and all degrees.", "anchors": ["poly.cc"]}
{"id": "C50", "title": "Shutdown hooks run once, in registration order, and caches can be refilled", "statement": "Every function registered with on_shutdown is run exactly once per shutdown call in registration order, and a singleton cleared at shutdown is reusable afterwards with the same results.", "quantifier": "all registration histories", "why_tests_cant": "Unbounded histories.", "anchors": ["shutdown.cc", "singleton.h"]}
{"id": "C51", "title": "Printed output is duplicated faithfully", "statement": "After tee(path), every printed line appears in the file and on standard output, in order, exactly once, for every sequence of prints.", "quantifier": "all print sequences", "why_tests_cant": "Unbounded histories.", "anchors": ["print.cc"]}
{"id": "C52", "title": "Results never depend on uninitialised memory", "statement": "Any two histories of the same calls on series with equal counts, coefficients and sizes give equal counts and coefficients or fail in the same way, whatever fresh memory, storage beyond the stored terms and scratch space contain; operands of different capacity but equal counts and coefficients give equal results; the same holds for reading files and for the whole program.", "quantifier": "all histories, all memory contents, all arithmetics", "why_tests_cant": "A test sees one memory content per run.", "anchors": ["series.h", "series.cc", "area.cc", "mandelbrot.cc", "codelets.cc"]}
{"id": "C53", "title": "Every operation returns the promised number of known terms", "statement": "Whatever the rounding of the arithmetic, each series operation that returns leaves exactly the documented known count (for example min of the operands for mul and div, the operand's for exp, log and inv), over every history; each step of the main loop doubles the count exactly.", "quantifier": "all histories, all arithmetics", "why_tests_cant": "Unbounded sizes, histories and arithmetics.", "anchors": ["series.h", "series.cc", "area.cc"]}
{"id": "C54", "title": "Different expressions rarely share a signature", "statement": "Two expressions over +, - and * with 32-bit integer literals that differ as polynomials modulo each of the four primes get equal signatures for at most a fraction degree^4/(p1 p2 p3 p4) of the choices of the signatures of their variables, so at most 2^-200 for degrees up to 8192.", "quantifier": "all pairs of expressions, all choices of variable signatures", "why_tests_cant": "Collisions are too rare to be sampled and the claim is about all expressions.", "anchors": ["sig.h", "sig.cc:random_sig", "exp.cc:CSE"]}
{"id": "C55", "title": "The interval area program prints enclosures of the true area bounds", "statement": "Every area that the interval program prints for step k, before and after refinement, is an interval that contains pi times the sum over i below 2^k of (1-i) f_i^2, where f is the exponential of the logarithm of the Böttcher series of the Mandelbrot set. With a table of true values and at most 30 steps the program ends normally after two areas for every step; a run that ends normally has compared every area with its table entry, and a run that stops on the comparison has printed an area that misses its entry.", "quantifier": "all interval arithmetics whose operations enclose, all numbers of steps, all tables, all printed areas", "why_tests_cant": "Enclosure is about the unknown exact real value and about every interval implementation and precision; tests compare digits at a few steps.", "anchors": ["arb_area.cc:arb_areas", "arb_area.cc:escape", "arb_area.cc:implicit", "arb_area.cc:area", "known.h"]}
{"id": "C56", "title": "The text of generated code means what was built", "statement": "The text written for an expression, read by the grammar of C++ (longest tokens, precedence, left association), is the expression it was written for, in every context the generator puts it, for everything the overloaded operators can build from names that are identifiers. The lines of a block, read and executed as C++ with literals of type int, give the values of the requested expressions, if no arithmetic is done on two literals and no literal is divided.", "quantifier": "all expressions, all histories of operators, all blocks, all values of the inputs", "why_tests_cant": "Wrong parenthesis, joined tokens such as -- or integer division only show for particular shapes among unboundedly many expressions.", "anchors": ["exp.cc:show", "exp.cc:Exp::show", "exp.h:Exp::prec", "join.h", "codelets.cc:Block::now", "codelets.cc:Block::compute"]}
{"id": "C57", "title": "Overlapping operands are refused or handled as copies", "statement": "Any operation on series whose operands are views that overlap each other or the destination either throws an assertion, or fails or returns exactly as if every operand were a copy. It throws because of an overlap exactly when it is an addition or an iterating function (inv, div, log, exp and their shifted forms) and an operand is a view into the destination; products, squares and elementwise functions work in place. No history of operations reads or writes outside the storage of a series. Elementwise functions from a shifted view of the destination need loops in order; assigning a series or its low terms to itself is excluded.", "quantifier": "all histories of operations, all overlapping views, all placements of storage, all orders of loop iterations on a device, any arithmetic", "why_tests_cant": "Tests use a few fixed overlaps; whether the address comparison and the order of reads and writes protect every combination of cuts and sizes is a statement about all of them.", "anchors": ["series.h:alias", "series.h:low", "series.h:high", "series.h:operator=", "series.cc:high_addsub_ldexp", "series.h:mul1p", "fft.cc:fft_addmul", "series.h:inv", "series.h:div", "series.h:exp", "series.h:log1p_exp"]}
{"id": "C58", "title": "The whole computation, from transforms to areas", "statement": "In exact real arithmetic, with products computed by the program's own transforms, mul, mul1p, sqr, inv, div, exp, log and log1p_exp return the exact truncated results for up to 2^28 terms. The area program with k at most 28 computes the coefficients of the Böttcher series or throws because it judged an area inaccurate. The areas it computes are the sums of Grönwall's theorem for one fixed series, whatever the number of threads and the order of summation, they decrease from one power of two to the next and are at most pi. A product of more than 2^28 stored terms is undefined behaviour. What transform buffers, destinations and fresh memory contain does not matter in any history.", "quantifier": "all series of up to 2^28 terms, all k up to 28, all contents of uninitialised memory, all thread counts and summation orders", "why_tests_cant": "Tests compare a few sizes against tables; that no size up to the limit of the tables of roots has a gap between transform, product, Newton iteration and area needs a composed proof.", "anchors": ["fft.cc:fft_mul", "fft.cc:fft_addmul", "fft.cc:fft_sqr", "series.h:mul", "series.h:mul1p", "series.h:inv", "series.h:exp", "series.h:log1p_exp", "area.cc:bottcher_step", "area.cc:areas", "area.cc:area"]}
{"id": "C59", "title": "The conversion programs", "statement": "series-to-npy, given a series file that the program wrote, writes a NumPy file with one row of two doubles for each stored term, in order and without loss. series-exp does the same with the terms of the exponential, for a series with constant term 0 and all its known terms stored. Neither overwrites a file that exists or changes any other file, and both refuse an output name that does not end in .npy and any number of arguments other than two. An input that does not exist is not noticed by series-to-npy, and series-exp refuses short series with trailing zeros.", "quantifier": "all series files, all file systems, all arguments, all contents of uninitialised memory", "why_tests_cant": "No test runs the two programs; that no earlier result can be overwritten is a statement about all file systems.", "anchors": ["series-to-npy.cc:convert", "series-to-npy.cc:main", "series-exp.cc:exp", "series-exp.cc:main"]}
{"id": "C60", "title": "What a completed run guarantees, and the options", "statement": "Whatever the arithmetic and its errors, and whether it started from scratch or from a file: each file that a completed run of the area program wrote for k at most 16 carries an area that is at most the tolerance away from the known one, and the file of f holds the series with that area. Beyond k = 16 nothing is compared. A tolerance that is not a number accepts nothing. -k is truncated and cut at 1000, and a run that is asked for more than 2^30 terms never ends normally. The program dies before any computation if --prec is given for another mode than arb, if the output directory exists or cannot be made, or if the mode is unknown; every exception ends in the same way.", "quantifier": "all number types, all inaccuracies of products and transforms, all tolerances, all options", "why_tests_cant": "Tests run accurate code on a few sizes; the claim is about what the check catches when the arithmetic goes wrong in any way.", "anchors": ["area.cc:error", "area.cc:bottcher_step", "area.cc:areas", "mandelbrot.cc:main", "known.h:known_areas"]}
{"id": "C61", "title": "Programs on a device do what they say, in order", "statement": "Work for a graphics card is launched and done later, by many threads whose memory accesses interleave in any way, in two streams. If no two threads of a kernel get in each other's way, every execution ends, and ends as if each kernel had run to completion when it was launched, one iteration after the other; whatever the host reads is what the program text says. No two threads of the kernels of the transforms, products and squares get in each other's way, for grids of every shape and for operands that overlap, so fft_mul, fft_sqr and fft_addmul on a card leave the exact product in the result and change no other number. This depends on the default stream waiting for the other one: compiled with a default stream for each thread, a program can read stale memory.", "quantifier": "all programs of launches and reads, all interleavings and delays, all grid shapes, all sizes up to 2^28, all contents of memory and of uninitialised buffers, all overlaps", "why_tests_cant": "Races and missing synchronisation show only in some schedules; a test runs few of them, on one card.", "anchors": ["loops.h:DEF_LOOP", "loops.h:DEF_SERIAL", "cutil.h:host_to_device", "cutil.cc:stream", "fft.cc:srfft_scramble", "fft.cc:isrfft_scramble", "fft.cc:fft_mul", "fft.cc:fft_sqr", "fft.cc:fft_addmul"]}
{"id": "C62", "title": "Arrays and series own their storage and free it exactly once", "statement": "Arrays and series behave as values that own their numbers: a moved-from one is empty with both counts zero, swap exchanges numbers and counts, writing one never changes another. A view follows the buffer it was taken from through moves and swaps of the owner and may be used until the object that holds the buffer then is cleared or destroyed, and no longer. Every buffer is freed exactly once, none while an object holds it, and none is left once all objects are gone. Using anything out of its lifetime, out of range or before it was written is the only way to undefined behaviour, except that a failed allocation of plain numbers is not noticed: the object reports its size but has no storage.", "quantifier": "all programs of constructions, moves, swaps, clears, destructions, element accesses and views, all sizes, all outcomes of allocation", "why_tests_cant": "Leaks, double frees and dangling views depend on the order of operations of the client; a test runs a few orders and often does not notice.", "anchors": ["array.h:Array", "series.h:Series", "area.cc:bottcher_step"]}
{"id": "C63", "title": "Rounding errors of products by Fourier transform grow only with the logarithm of the length", "statement": "When the scalar type rounds (sums within ε times the sum of the absolute values, products within ε times the product, table entries within ε), each coefficient computed by fft_mul or fft_sqr is within ((1+ε)^(196 q + 28) - 1) |x| |y| of the exact coefficient, where |.| is the Euclidean length and q, the number of passes over the data, is about a third of the logarithm of the length; for fft_addmul the error of one more addition comes on top. For every length up to 2^28 and ε up to 2^-17 the bound is 2048 ε |x| |y|. Cells outside the output are not touched, and outputs longer than the product are refused. More generally the bound holds for any bodies of the generated loops that are accurate one by one.", "quantifier": "all scalar arithmetics with the stated accuracy, all rounded twiddle tables, all inputs, all lengths up to 2^28, all buffer contents", "why_tests_cant": "Tests compare with a slow product for a few random inputs with a tolerance found by trial; they cannot bound the error for all inputs and lengths.", "anchors": ["fft.cc:fft_mul", "fft.cc:fft_sqr", "fft.cc:fft_addmul", "codelets.cc:butterflies", "complex.h:Complex"]}
{"id": "C64", "title": "Reciprocals and quotients of expansions are accurate to almost all their digits", "statement": "For expansions of n = 2, 3 or 4 doubles whose components fall off by a unit in the last place, with sizes between 2^-700 and 2^700, the reciprocal y of b satisfies |b y - 1| <= 2^-(47n+5), the quotient q = a/b satisfies |b q - a| <= |a| 2^-(47n+4), and the product is exact up to the fraction 2^-(50n+1). The components of a quotient fall off by 2^-50 per place even when those of the operands fall off by only 2^-48, so quotients and products of quotients can be divided again with accuracy 2^-47n. Zero divided by anything is zero in every component. Division by a 64-bit integer is as accurate as division by an expansion, except that integers above 2^63 - 512 are undefined behaviour.", "quantifier": "all operands in the stated range, all roundings to nearest whatever they do with ties", "why_tests_cant": "Tests divide random numbers and compare within a tolerance; the claim is about all operands, including those where the roundings of some dozens of operations conspire.", "anchors": ["expansion.h:inv", "expansion.h:operator/", "expansion_arith.h:operator*"]}
{"id": "C65", "title": "The numbers printed bound the area of the Mandelbrot set from above and converge to it", "statement": "Let M be the set of complex numbers c for which c, c^2+c, ... stays bounded, and let f be the series that the program computes. For |z| > 1 the series phi(z) = z sum f_i z^-i converges, and phi is an analytic bijection from the outside of the closed unit disc to the outside of M. The sum of n f_(n+1)^2 converges and the area of M is pi (1 - sum n f_(n+1)^2). Hence the area computed from the first 2^k terms is, for every k, at least the area of M, and it converges to the area of M as k grows. What the programs print in ball arithmetic therefore contains an upper bound of the area of M.", "quantifier": "all k, all runs of the programs, all complex z with |z| > 1", "why_tests_cant": "The claim relates a finite computation to the Lebesgue measure of a fractal and to a conformal map; no test can observe either.", "anchors": ["README.md", "area.cc:area", "area.cc:areas", "arb_area.cc:arb_areas"]}
{"id": "C66", "title": "A passing test run means that every selected test passed", "statement": "The test program runs the tests selected by its arguments (all without arguments), each exactly once, in the order of registration, and goes on after a failure; it exits with code 0 exactly if each of them returned, its summary has the right numbers and names, and the shutdown hooks run afterwards. A failed assertion ends its test and prints the first assertion that did not hold. An expected exception is accepted exactly if an exception with a type name that contains the given name was thrown. The distance between two series that tests compare with a tolerance is at least the difference of every pair of numeric terms, absolute and relative, and is 0 only for series that agree in their numeric terms.", "quantifier": "all lists of tests, all behaviours of the tests, all arguments, all series of doubles", "why_tests_cant": "The tests rely on this code to report; a runner that swallowed failures would report success about itself.", "anchors": ["tests.cc:run_tests", "tests.cc:test_throw", "tests.h:ASSERT_EQ", "series.cc:error"]}
{"id": "C67", "title": "The picture shows the truncated exterior map", "statement": "Putting one colour over another is associative, has the transparent colour as neutral element for the eye, and keeps components between 0 and 1. The canvas covers the box with square pixels, with all samples in their pixels and no access outside the arrays. A circle colours exactly the samples within its radius; a later opaque circle hides an earlier one; a blob leaves out only samples whose weight is at most exp(-25/2); the border is exactly the outer pixels. The program draws circles around the values of the map, cut off after 2^k terms, at the 2^k solutions of z^(2^k) = -1, and writes 256 rows of 282 pixels whose bytes are the rounded averages of what the samples of the pixel show. For the series of the Mandelbrot set it always succeeds.", "quantifier": "all boxes, sizes, random points, colours, circles, series with a bounded sum of absolute values, and contents of fresh memory", "why_tests_cant": "There are no tests of this program, its points are random, and what it shows depends on the content of memory that is not initialized.", "anchors": ["logo.cc:over", "logo.cc:Canvas", "logo.cc:logo"]}
{"id": "C68", "title": "The table of known areas is right, so the comparison with it means something", "statement": "Each of the seventeen entries of the table of known areas, with all of its digits (up to about 600), is a ball that contains the true value: Gronwall's sum over the first 2^k terms of the Böttcher series, for the k of the entry; the entries are those for k = 0, ..., 16 in order, and no entry is wider than 4e-20. Hence every file that a completed run of the area program writes for k up to 16 carries an area within the tolerance of the true one, whatever the number type and however accurate its arithmetic; the interval program never fails its comparison on a ball that contains the true value, and if it ends normally each ball printed for k up to 16 comes within 8e-20 of it. The area of the Mandelbrot set is at most 1.7533757723569263362.", "quantifier": "all rows and digits of the table; all arithmetics, precisions, products, tolerances, inputs and numbers of steps", "why_tests_cant": "The programs and tests take this table as the truth; a wrong entry, or one that the same bug produced, would be confirmed by every test.", "anchors": ["known.cc:known_areas", "area.cc:area", "arb_area.cc:areas"]}
{"id": "C69", "title": "The wrappers of library numbers are values and manage their memory", "statement": "Numbers of the interval library wrapped in C++ objects (balls, complex balls, floats, magnitudes, rationals, polynomials) behave as independent values: construction gives zero, conversion and assignment copy, moving takes the value and leaves zero, a library call changes the object that it is given as result and no other. No program that keeps to lifetimes frees memory twice or reads freed memory; the memory in use is exactly one block for each live object with a large value, plus one for every output with <<, whose buffer is never freed. Assigning an object to itself by move makes it zero.", "quantifier": "all programs of constructions, conversions, moves, assignments, library calls, outputs and destructions, all values, all libraries with any choice of the values that need memory", "why_tests_cant": "Double frees and leaks depend on the order of moves and destructions and on the sizes of the values; tests notice neither without instrumentation.", "anchors": ["arb_cc.h:Arb", "acb_cc.h:Acb", "arf_cc.h:Arf", "mag_cc.h:Mag", "fmpq_cc.h:Fmpq", "poly.h:Poly"]}
{"id": "C70", "title": "The code generated for short inverses and exponentials computes them", "statement": "The code that the generator writes for the base cases of series inverse and exponential reads at most five terms, missing ones as zero, and stores the first min(5, ny) terms of the inverse or exponential, however source and destination overlap in memory, and changes nothing else, although the generator multiplies series in place with a loop that overwrites its own operand. With more terms the same generator would be wrong.", "quantifier": "all values of the terms in a field of characteristic zero, all lengths and addresses, all random signatures under which equal signatures mean equal values", "why_tests_cant": "The generated code is a straight line program in symbolic form; tests run it on some numbers and within a tolerance, and cannot see for which sizes the in-place products are right.", "anchors": ["codelets.cc:series_bases", "series.h:inv", "series.h:exp", "series.h:mul"]}
{"id": "C71", "title": "The code generated for sums, differences and products of expansions performs the stated algorithm", "statement": "The lines that the generator writes for +, - and * of expansions declare every name once and before use and end in a return statement whose values are those of the published addition and multiplication algorithms, rounding for rounding: sharing of common subexpressions, removal of zeros, moving of signs and the choice of which temporaries to name change no rounding. The results of the written code therefore have the error bounds of the algorithms.", "quantifier": "all numbers of components, all values of the components, all roundings that commute with the sign, all random signatures under which equal signatures mean equal values", "why_tests_cant": "Tests evaluate the written operators on random operands of three sizes within a tolerance; a shared or reordered operation that loses the error term on special operands shows only there.", "anchors": ["codelets.cc:expansion_arithmetic", "codelets.cc:two_sum", "codelets.cc:two_prod", "codelets.cc:collange_add", "codelets.cc:collange_mul", "codelets.cc:Block"]}
{"id": "C72", "title": "The code generated for the butterflies of the transforms computes the butterflies", "statement": "The lines that the generator writes for the first levels and for the remaining levels of the real transform declare every name once and before use, and the loops made of them do to the cells what the butterflies of the transform do: real cells beyond the given length count as zero, the factors are taken at the stated numbers, and nothing else is written. For the inverse transform the generator differentiates the circuit instead, and the lines it writes apply the transposed butterflies.", "quantifier": "all counts, levels, lengths and contents of the cells, all factors, all random signatures under which equal signatures mean equal values", "why_tests_cant": "Tests compare transforms of a few sizes within a tolerance; they do not see which of the shared expressions a given choice of random signatures merges, and cannot run all lengths that end inside a butterfly.", "anchors": ["codelets.cc:srfft", "codelets.cc:forward", "codelets.cc:reverse", "codelets.cc:gradient", "codelets.cc:butterfly_0", "codelets.cc:butterfly_1", "codelets.cc:butterfly_s1", "codelets.cc:butterfly_s2", "codelets.cc:butterfly_s3", "codelets.cc:Block"]}
{"id": "C73", "title": "The closing comment of a generated function counts the operations it contains", "statement": "The comment that ends a generated block of code, such as \"// 15 ops = 12 adds + 1 neg + 2 calls\", gives the numbers of negations, of additions and subtractions, of products, of calls and of divisions that are spelled out in the temporaries and results of the block, and their total. An expression shared through a temporary counts once, one that is written twice counts twice. Kinds that do not occur are left out, a single operation is in the singular, and no two different sets of counts give the same comment. Counting does not change what is written.", "quantifier": "all sequences of inputs, uses and results asked of a block, all expressions, all signatures", "why_tests_cant": "No test reads the generated comments; whether an expression is shared depends on random signatures and on everything else the block computes.", "anchors": ["exp.cc:Stats::add", "exp.cc:Stats::show", "codelets.cc:Block::compute", "codelets.cc:Block::~Block", "join.h:join"]}
{"id": "C74", "title": "Random expansions satisfy the invariant of expansions", "statement": "random_expansion and random_expansion_with_exponent return expansions whose components are nonzero and each at most a unit in the last place of the one before, at most 2^e in size and with the sign of the first draw, for any draws from -1 to 1 that are not zero; a draw of exactly zero gives a zero component followed by a nonzero one, which breaks the invariant. random_expansion_near returns an expansion whose value is that of x or of -x up to 3 2^-d times its first component and the error of the sum, where d is the drawn distance.", "quantifier": "all draws, all exponents away from underflow, all numbers of components", "why_tests_cant": "The unit test draws 64 expansions from one seed; the draws are 2^64 per component, and the one that fails is a single value.", "anchors": ["expansion.cc:random_expansion_with_exponent", "expansion.cc:random_expansion", "expansion.cc:random_expansion_near", "arith.h:exponent"]}
{"id": "C75", "title": "Generated files are laid out as nested scopes and written where they are asked for", "statement": "Every file the code generator writes starts with its title comment, the note that it is generated, the include guard and its includes, and ends with the closing of the namespace. Every scope that is opened in it is closed at the indentation at which it was opened, with all lines in between empty or indented by at least two more, also when an exception ends generation; the indentation is then back at zero and the file closed. The generator for a path is decided by the end of the path, for which at most one fits. The program succeeds exactly if every path has a generator and all of them run to their end, otherwise it stops with an error at the first path that fails; paths before it hold their complete files and no other file is changed. A path that cannot be opened for writing is not noticed.", "quantifier": "all sequences of lines, scopes and exceptions, all lists of paths, all states of the files", "why_tests_cant": "No test runs the generator with failures or reads the layout; the ways an exception can pass through open scopes are unbounded.", "anchors": ["codelets.cc:line", "codelets.cc:Indent", "codelets.cc:Scope", "codelets.cc:Header", "codelets.cc:main"]}
{"id": "C76", "title": "Asynchronous work on the device is never observable", "statement": "A program that uses the GPU behaves as if every kernel, copy, allocation and release were finished when the call returns: whatever order the device chooses within the rules of its streams, the host reads the same values, no run fails that would not fail one call at a time, and every run ends with the same result after at most twice as many steps. This needs the legacy default stream, since loops are issued to the default stream and everything else to another one. cuda_sync waits only for the latter. A series copied to the device and back has the same counts and terms; a copy without room for the stored terms, or between spans of different sizes, is refused.", "quantifier": "all host programs, all kernels, all schedules of the device, all series and memories", "why_tests_cant": "Tests see the one schedule of the machine they run on; a race between streams depends on timing.", "anchors": ["loops.h:INVOKE_GRID_STRIDE_LOOP", "loops.h:DEF_SERIAL", "cutil.h:host_to_device", "cutil.h:device_to_host", "cutil.h:device_to_device", "cutil.cc:stream", "cutil.cc:cuda_sync", "array.h:Array", "series.h:host_copy"]}
{"id": "C77", "title": "Values reach ball arithmetic without loss, and reported ranges and errors are bounds", "statement": "The ball of an expansion contains its exact value at every precision, and is that value alone if the precision reaches from the size of the expansion to its last bit; the exact conversions give the value and nothing else. The statistics printed for a polynomial of balls give a range that contains every value a coefficient can have and a radius that is enough for each, and each printed number is that of some coefficient. The comparison with published areas prints a line for exactly the entries between half of the terms and all of them, in the second pass only, in the order of the table; each line shows the area from that many terms and a bound for its distance from the published one. Every entry of the table is reported in exactly one step.", "quantifier": "all expansions, precisions, polynomials of balls, tables, steps, and ball arithmetics that enclose", "why_tests_cant": "Enclosure is a claim about every precision and every value; the comparison is printed only in steps that take hours.", "anchors": ["expansion.cc:Expansion::arb", "expansion.cc:exact_arf", "expansion.cc:exact_arb", "poly.cc:Poly::stats", "area.cc:bottcher_step", "known.cc:bittner_areas"]}
{"id": "C78", "title": "What a user sees of an error that ends a program", "statement": "When an exception ends one of the programs, its message is shown in full on the standard error and the program ends with code 1, provided the message has no percent sign; failed assertions carry the place, the message and the condition, so this holds exactly if none of these has a percent sign. With percent signs it does not hold: the message is used as a format string, a doubled sign is shown as one, and at a sign that is not doubled the program aborts without a message, or, with assertions compiled out, shows only what comes before it. The code generator is the exception: it shows every message in full, with its type.", "quantifier": "all messages, all failed assertions, both kinds of build, all states of the output", "why_tests_cant": "The tests never run the ends of the main programs; which messages are lost is a claim about every string.", "anchors": ["debug.h:die", "debug.cc:die", "debug.cc:assertion_failed", "mandelbrot.cc:main", "series-to-npy.cc:main", "series-exp.cc:main", "logo.cc:main", "tests.cc:main", "codelets.cc:main"]}
{"id": "C79", "title": "Temporary files and directories are gone after their scope", "statement": "A temporary file or directory is made at a new path below /tmp with the given prefix, is empty and changes nothing else. However their scopes are nested, and whether they end normally or by an exception, nothing remains of them or of what the test put into them, and all other files that the test does not touch itself are as before. Directories leave no file descriptor open. Every temporary file leaves one open until the program ends, so that a long enough series of them fails although each is gone before the next is made.", "quantifier": "all nestings and sequences of scopes, all code inside them, all exceptions, all states of the file system and answers of the system", "why_tests_cant": "Tests use these objects but do not look at what is left; the leak shows only after as many files as the process may open.", "anchors": ["tests.cc:Tmpfile", "tests.cc:Tmpdir", "tests.h:Tmpfile", "tests.h:Tmpdir"]}
{"id": "C80", "title": "Signatures of rounded operations are confused only by collisions of the hash", "statement": "The bytes hashed for a rounded operation determine its name, as long as names are shorter than 32 bytes, and its operands with their number and order; the signature is the digest, byte by byte. So two such operations get the same signature exactly if they have the same name and the same operands, unless the hash function has a collision. Names of 32 bytes can be mistaken for an operand; a member and a function of the same name, and all operations without a name, share their signatures. The digest is not reduced modulo the primes, and one above its modulus is not negated correctly.", "quantifier": "all names, all numbers of operands, all signatures, all hash functions with 32 bytes", "why_tests_cant": "Injectivity is a claim about all pairs of inputs.", "anchors": ["sig.cc:arbitrary", "sig.h:arbitrary", "exp.cc:CallExp", "exp.cc:FieldExp"]}
{"id": "C81", "title": "Literals of the table of earlier areas mean the numbers of terms they show", "statement": "A literal of the table, a number of millions with one decimal and an M, that the parser accepts (and that has no minus sign) gives the number of terms that is written or one less, and keeps its value; every such literal that fits an int is accepted. For multiples of half a million, as in the table, the number is the one that is written, whatever way ties are rounded. The assertion that formats the number again does not notice a lost unit: 4.1M is accepted as 4099999 terms.", "quantifier": "all strings without a minus in front, all literals that fit, all roundings to nearest of doubles", "why_tests_cant": "Tests run over the ten literals of the table; which others would be accepted and what they would mean is a claim about all strings and all roundings.", "anchors": ["known.cc:bittner", "known.cc:bittner_areas"]}
