# Design

Target: girving/mandelbrot at the pinned commit in /repo (C++, read as text only). The model is in Lean 4 with Mathlib under `lean/Verif`.

## Approach

* The source is modelled function by function. Each definition cites the file and lines it models and says what was simplified.
* C++ outcomes are kept apart: normal return, `slow_assert`/`throw` (exception), `die` (process exit), and undefined behaviour.
* Coefficients of a series are elements of a field of characteristic 0 (exact arithmetic); storage beyond the stored terms holds arbitrary values, so results are proved independent of it.
* Integers are unbounded unless a property is about a machine width; those use explicit 32/64-bit wrap-around.
* Specifications are written with Mathlib notions (PowerSeries, ZMod, Complex, Finset sums) rather than model helpers.
* If a claim is false of the code, the negation is proved on a concrete witness and the true part is kept as a `_partial` theorem.

## Trusted base

Lean's kernel, including its arithmetic on natural numbers, which C68 uses on numbers of several million bits; the axioms `propext`, `Classical.choice`, `Quot.sound` (checked with `#print axioms` for every property theorem); the reading of the C++ text recorded in the comments of the model. Not modelled unless stated: compilers, operating system, OpenMP and CUDA runtimes (only their scheduling freedom), Arb/FLINT (only enclosure contracts), IEEE overflow/underflow/NaN, SHA-256, the test cases.

## Properties and plan

* **C01 partition_loop splits a loop exactly.** `partitionLoop` over Int as in the source; theorem by integer division facts (omega/nlinarith).
* **C02 map_reduce equals the sequential fold for every thread count and schedule.** Small-step interleaving machine: each thread has a program counter (resize, take reference, first map, further reduces); any list of thread choices is a schedule. Invariant over all steps; final fold equals `List.foldl`.
* **C03 map_reduce never uses a dangling or shared partial slot.** Same machine, with a vector generation number that changes on reallocation; invariant: generation constant once a reference is held, slots disjoint.
* **C04 Loop kernels visit each index once and host and device agree.** Grid-stride index list in Int32 wrap-around arithmetic; multiset equality with range; permutation-invariance of a loop whose bodies commute; negative witness for n >= 2^31.
* **C05 Series counts stay consistent over every history.** Series operations modelled as a transition system over a store of series; invariant by induction over histories; negative witness for set_counts(-1,5).
* **C06 low and high views denote truncation and shift.** Views on the value model; denotation to coefficient functions.
* **C07 Assignment and copy reproduce the value and fail cleanly.** Value model with destination storage kept, success iff limit suffices.
* **C08 Shifted add and subtract are exact and local.** Function-by-function model of high_addsub_ldexp; denotation theorem; independence from cells beyond nonzero.
* **C09 mul is the truncated product.** Value model of mul on top of a multiply kernel with its assertion; theorem in Mathlib PowerSeries; negative witness.
* **C10 sqr is the truncated square.** As C09.
* **C11 mul1p computes x(1 + z^s y).** As C09.
* **C12 inv returns the reciprocal to full order.** Newton loop modelled as written; invariant x*y = 1 mod z^m through newton_iterate.
* **C13 div returns the quotient to full order.** Built on C12.
* **C14 inv1p and div1p are exact.** As C12 with shift.
* **C15 exp returns the exponential to full order.** Newton loop with log; specification by the differential equation and by Mathlib's exp substitution if practical.
* **C16 log and log1p return the logarithm to full order.** Through C13/C14 and integration.
* **C17 expm1 is exact.** Newton loop with log1p.
* **C18 log1p_exp is exact.** Newton loop with exp and expm1.
* **C19 derivative_shift, integral_shift and ldexp.** Direct.
* **C20 newton_iterate runs the right schedule.** Model of newton_steps/newton_iterate producing the list of calls.
* **C21 fft computes the discrete Fourier transform and ifft inverts it.** FFT over an abstract field with exact roots, and the complex numbers as instance; recursion on the size.
* **C22 Shifted real FFT evaluates at the odd roots and its transpose inverts it.** Same; transpose through the adjoint identity.
* **C23 fft_mul is polynomial multiplication.** From C22 and root orthogonality; heap-level aliasing model.
* **C24 Twiddle tables hold the stated roots of unity.** Exact-arithmetic model of TwiddleSlice lookups over the complex numbers.
* **C25 Twiddle cache is transparent.** State machine for the cache.
* **C26 Bit reversal and shifted permutations are permutations.** Nat/BitVec model of bit reversal; involution by induction on the bit count.
* **C27 escape and implicit compute the Mandelbrot recurrence.** Model of escape/implicit on the series layer; independent recurrence Q_k in PowerSeries.
* **C28 bottcher_step doubles the number of correct terms.** Newton argument in PowerSeries mod z^n; induction over steps.
* **C29 The Boettcher series is unique and prefixes agree.** Algebraic uniqueness proof.
* **C30 area is the Gronwall sum and decreases.** Real sum, map_reduce theorem C02, monotonicity.
* **C31 known_to_k recognises exactly the powers of two.** Arithmetic on Nat with an explicit UB outcome.
* **C32 write_series then read_series is the identity.** Character-level model of writer and reader; formatter as a parameter with a stated contract.
* **C33 Incomplete files are detected except in stated cases.** Same model, prefix of the output; witnesses for the silent cases.
* **C34 Resuming equals continuing.** Abstract step function; composition with C32.
* **C35 npy headers are well formed.** Character-level model of numpy_header and a decoder.
* **C36 Signature arithmetic is a ring homomorphism.** UInt64-range Nat model with explicit wrap; maps to ZMod p.
* **C37 Modular inverse, power and square root are correct.** Extended Euclid loop invariant, square-and-multiply, Cipolla in ZMod p[sqrt b].
* **C38 Primality test accepts every prime.** Miller-Rabin soundness direction from Fermat.
* **C39 Symbolic simplification preserves value.** Expression datatype with smart constructors; evaluation in any commutative ring.
* **C40 Common subexpression elimination preserves value.** CSE table state machine with signatures.
* **C41 Generated straight-line code computes the expressions.** Block emit model; evaluation of emitted lets.
* **C42 Symbolic transpose is the transpose.** Reverse-mode accumulation model on a DAG.
* **C43 Base-case codelets are exact.** Expansion of the codelet generators over a commutative ring.
* **C44 two_sum and two_prod are error free.** Binary floating point with unbounded exponent as a set of dyadic rationals, rounding to nearest as any function meeting the nearest property.
* **C45 Expansion sums lose only the discarded tail.** Algorithm model over C44.
* **C46 Expansion comparison, sign, abs and integer conversion.** Normalised expansions over C44.
* **C47 nearest returns the correctly rounded value.** Monotone rounding plus enclosure contract.
* **C48 nearest_twiddles fills every entry with the right root.** Index arithmetic.
* **C49 Interval polynomial routines enclose the true series.** The Arb library is a record of operations with an enclosure contract (`Spec.ArbSound`), which sets of reals with exact images meet (`C49_contract_met`). Sums, quotients and logarithms: proved. The three routines with an exponential: proved without their last refinement; with it only under a condition on means, because the contract does not give it (`C49_exp_witness`).
* **C50 Shutdown hooks run once, in registration order, and caches can be refilled.** List state machine.
* **C51 Printed output is duplicated faithfully.** Output trace state machine.
* **C52 Results never depend on uninitialised memory.** Two-run (relational) lemma for every operation and for the loops; histories by induction.
* **C53 Every operation returns the promised number of known terms.** Abstract machine on counts only, refined by every operation.
* **C54 Different expressions rarely share a signature.** Schwartz-Zippel for each of the four primes.
* **C55 The interval area program prints enclosures of the true area bounds.** On top of C49. Invariant: the coefficients enclose a solution with 2^k terms. First pass: exact Newton step (C28) on a polynomial inside the box. Refinement: mean value theorem coefficient by coefficient along the segment from the solution to the midpoint, with derivatives of power series in a real parameter (`PS/Deriv`). Proved without the last step of the exponential routines; the code as it is under the condition that these enclose.
* **C56 The text of generated code means what was built.** `show` as lists of characters (`Sym/Text`); an independent lexer, recursive-descent parser and typed evaluator of C++ expressions (`Spec/Cpp`). Induction over expressions with one invariant per precedence level; a closure property of the operators (`Sym/Kept`); for blocks, each line is a part of a request with some parts replaced by temporaries (`Shadow`).
* **C57 Overlapping operands are refused or handled as copies.** The functions again, over a memory of blocks with series as owners and views as pointers, every access checked, loops in any order (`Series/Alias`). Each is related to the function on copies by frame conditions (`AliasLemmas`, `AliasFns`), histories by induction (`AliasHistory`); functions on copies fail only by assertions (`Throws`). The comparison of addresses is related to blocks under any placement of the storages.
* **C58 The whole computation, from transforms to areas.** The kernels of C09-C18 and C27-C34 are assumed exact up to some size `N`; `FFT/Kernel` shows that `fft_mul`, `fft_addmul` and `fft_sqr` over the reals are such kernels with `N = 2^28`, and C58 draws the conclusions.
* **C59 The conversion programs.** `IO/Tools` models the two programs on a map from names to files, built on the models of reading, writing and `exp`; C59 composes C32, C35 and C16 and proves that nothing else is written.
* **C60 What a completed run guarantees, and the options.** `Area/Check` fills in the comparison that the area program of C27-C34 takes as a parameter, with balls that satisfy the contract of Arb, and the part of `main` after parsing. C60 makes no assumption about the arithmetic: the guarantee comes from the check alone.
* **C61 Programs on a device.** `Device/Model` is a small-step semantics: a host program that launches commands, reads and synchronises; pending commands; threads of a command whose steps interleave freely; the order between the two streams. C61 proves by an invariant that every maximal execution is the sequential one if threads commute, that no execution is infinite, and that a loop whose iterations keep out of each other's way is such a command. `Device/FFT` lists the memory accesses of the kernels of the transforms, and C61 composes their freedom of races with C23.
* **C62 Storage.** `Runtime/Storage` models objects, views and a heap of blocks with freeing; `Spec/Storage` is a semantics without a heap, where objects are values and a view names the present holder of its buffer. C62 proves by a simulation over all programs that results agree and that undefined behaviour occurs exactly where the values do not allow the operation, and from the invariant that blocks are freed once and none leaks.
* **C63 Rounding errors.** `FFT/Rounded` has the transforms and products over any scalar type with arbitrary loop bodies; `FFT/RoundedText` has the bodies of the generator in a given arithmetic. `Spec/Rounding` states the accuracy of bodies (`Within`), of arithmetic and tables. C63 bounds the forward transforms in the Euclidean norm and the backward one in sums of absolute values, pass by pass by induction, so that no factor of the length appears, then proves `Within` for the bodies from the accuracy of single operations.
* **C64 Division of expansions.** `Float/Division` has the Newton iteration and the division. `Float/Bounds` runs the same sums and products on natural numbers that bound the components and what is discarded, and proves that they do so for every input, including products that underflow. C64 follows by running the iteration on bounds once for each of the three sizes, in the kernel; the accuracy holds for all operands, since the bounds do.
* **C65 The Mandelbrot set.** `Spec/MandelbrotSet` defines the set by boundedness of the orbits that the README names. `MSet` proves the theorem of Douady and Hubbard from nothing but Mathlib: the Green function (`Green`), the Böttcher coordinate near infinity (`Chi`), its extension along preimages (`Extend`, `Theta`), the map of parameters (`Param`), and that it is a proper map of degree one, hence a bijection (`Degree`, `External`). The area theorem is proved by Parseval's identity on circles (`Parseval`), a change of variables on rings (`AreaInt`) and a limit (`AreaThm`). `Coeff` shows that the Taylor coefficients of this map solve the equations that the program solves, so that they are the same series. C65 then joins this to C30, C55 and C58.
* **C66 Test runner.** `Test/Harness` models the registry, `test_throw`, the assertions and `run_tests` with `main` on tests that are arbitrary functions of an arbitrary state; the lines printed are data. `Spec/Harness` says which tests are selected and what it means that they run one after the other. C66_verdict relates the two by induction over the tests. `Test/Error` models the distance of series on doubles with NaN and infinities (those of C60).
* **C67 Picture.** `Logo/Model` models logo.cc on real numbers with the integer conversions checked. Colours, loops and the file are treated separately, by induction over the lists of samples and circles; the points use C22 for the transform; C67_logo puts them together for the program, and C67_logo_series uses C65 (the area theorem bounds the sum of the series by Cauchy and Schwarz) to show that for the true series all conversions are in range.
* **C68 Table of known areas.** `Known/Table` has the table with all digits. The entries are constants, so the kernel can decide whether they are right once the question is reduced to integers: `Known/Compute` is a program of our own, on natural numbers with a whole series packed into one, that solves `Q_k(f) = 1` by Newton's method, recomputes the residual, and bounds the distance of its result to the true series and to the sum; `Known/Perturb`, `Pack`, `Sound`, `Pi`, `Sums` prove for all precisions and sizes that if its check returns true then the true sum is in the ball (`fits_sound`, with Machin's formula for π). `RunA` and `RunB` evaluate the check in the kernel (`decide +kernel`, no compiled code): 2^13 terms with 2080 bits and 2^16 terms with 172 bits. C68_files and C68_arb_printed combine the table with C60 and C55.
* **C69 Wrappers.** `Runtime/Wrapper` has numbers that are stored in place or point to a block, and the operations of the wrapper classes on them, with bitwise copies as the code does them. `Spec/Wrapper` says what the operations do to values. C69_values is a refinement by an invariant: each block is pointed to by one object.
* **C70 Generated series base cases.** `Sym/SeriesGen` runs the series functions of series.h on symbolic expressions as the generator does, with its own in-place multiplication, then the block and the written lines. `Sym/SeriesSim` is a simulation: on expressions everything follows the same functions on numbers unless signatures clash. `Sym/SeriesNum` shows that these are right up to five terms, where the in-place products only meet operands that start with enough zeros. `Sym/SeriesLines` runs the lines on one memory. `C70_inv_link` and `C70_exp_link` connect this to the base cases that the model of the series functions (C43) uses.
* **C71 Generated operators on expansions.** `Sym/ExpansionGen` runs `collange_add`, `collange_sub` and `collange_mul` on symbolic expressions with `CSE(false)`, then the block and `compute`. Values are reals with rounded operations (`Fl rn`), which satisfy no ring laws. `Sym/ExpansionSim` proves what each operator on expressions does to values: it is the rounded operation exactly, except that signs move, which costs nothing when the rounding commutes with the sign. `Sym/ExpansionRun` follows the generators operation by operation and connects them to the algorithms on numbers of C45. `C71_operator` is about the lines, `C71_*_accuracy` carry over the bounds of C45, and `C71_finishes` (from `Sym/ExpansionTotal`) says that the generators end for every number of components.
* **C72 Generated butterflies.** `Sym/FFTGen` runs the functions of the butterflies on symbolic expressions with `CSE(true)`, then the block, `compute` and the writes to cells. `Sym/FFTSim` follows them operation by operation: the expressions stand for the butterflies of `FFT/Model` over the complex numbers. `Sym/FFTRun` gives the lines a meaning on two arrays and names, and says what it takes for lines to compile. `C72_levels` and `C72_first` are about the loops, `C72_first_small` about the functions without a loop. Beside them `Props/FFTGenCases` checks the hypotheses for a hash and generic signatures. For the inverse transform the generator differentiates the same circuit: `Sym/FFTTotal` shows that the operators succeed on expressions with exact signatures, `Sym/FFTBack` turns the identity of C42 into the value of each result by probing with unit vectors, and follows the writes to the real cells with their three operators. `C72_levels_back`, `C72_last` and `C72_last_small` are about the loops and functions. They ask that the circuit is linear with different parts of different signature (`Transposed`), checked for one level and for the transposed functions of four numbers in `Props/FFTBackCases`; for three levels the check needs more memory than a build should take. `Props/FFTFinish`: the generators finish for one, two and three levels (and for no other number in the remaining levels); lines are written if the signatures tell the parts of the results apart, and, transposed, if the circuit meets the conditions of `gradient`.
* **C73 Operation counts.** `Sym/Stats` adds the counts to the block: `computeS` is `compute` with line 172. An invariant over `compute` says that operations in the lines, operations in the result and the counts balance; with it C73_counts is an induction over what is asked of the block, C73_succeeds and C73_counts also say that the block without counts does the same. C73_text reads the comment back by cutting it at `=` and `+` and looking for a letter that only one name has. C73_comment writes the comment of a whole block out in full from the lines of its code, plurals included.
* **C74 Random expansions.** `Float/Random` has `exponent` and the three functions over given draws. C74_random is an induction over the components: products with powers of two are exact away from underflow, and the next exponent is one last place of the component before. C74_near adds the error bound of C45. C74_zero_witness is the draw that breaks the invariant.
* **C75 Layout of generated files.** `Sym/Layout` has the global indentation and output file, and the destructors that run when an exception passes. The specification hands the depth down instead. C75_exec is an induction over what is written, C75_file and C75_main follow it through `Header` and `main`.
* **C76 Work on the device.** `Runtime/Stream` has a host program, the memory of the device and the issued tasks, with one step at a time of either. The specification runs one call after the other. C76_refines and C76_ends follow from an invariant: the pending tasks, in order of issue, bring the memory to where the specification has it. The copies of series are proved on the specification's side. C76_streams_witness shows a wrong result without the rule of the legacy default stream.
* **C77 Conversions to balls and reports.** `Float/ToArb` has the sums of `arb`, `exact_arf` and `exact_arb`, the loop of `Poly::stats` and the filter of the Bittner comparison over a record of Arb operations. The promise of the library (enclosure, and exactness of sums of points that fit) is a hypothesis, with an arithmetic that keeps it beside the theorems. C77_arb and C77_arb_exact are inductions over the components; C77_once counts the steps by the binary logarithm.
* **C78 Messages of fatal errors.** `IO/Fatal` has the copying of a format string by tinyformat, `tfm::format` without arguments and with `%s`, the text of a failed assertion and the two ways in which the programs call `die`. Every string is uniquely a text with doubled `%` and a rest that is empty or starts with a conversion (strong induction on the length), from which the theorems follow. C78_percent_witness is an output file whose name has a `%`.
* **C79 Temporary files.** `Test/Tmp` has the constructors and destructors over a file system whose answers are parameters, and programs that nest their scopes around any other code that may throw. C79_clean is an induction over the program with the set of paths that the code around may change; the promise that new paths are new is a hypothesis, with a system that keeps it beside the theorems. C79_leak_witness counts the descriptors that are never closed.
* **C80 Hashed signatures.** `Sig/Arbitrary` has the bytes in memory of signatures and `arbitrary` over an arbitrary hash function. C80_bytes compares lengths modulo 32 and splits the lists; C80_digest reads the bytes back. C80_long_witness is the name that is taken for an operand, C80_unreduced_witness a digest above the modulus.
* **C81 Literals of the table.** `Float/Bittner` has the parser over strings with any rounding of doubles to nearest. C81_near bounds the errors of the four roundings; C81_accepted turns the last assertion round: an accepted string is the text of some number of tenths, and larger ones fail the conversion to `int`. C81_halves is exact since halves of integers are doubles. C81_lost_witness computes the double nearest to 4.1.

## What is modelled

| Code | Model | Simplifications |
|---|---|---|
| loops.h, loops.cc | `Loops/Model`, `Loops/Memory` | OpenMP as arbitrary interleaving of atomic steps, CUDA grids as index lists |
| series.h, series.cc (all functions except spans on the device) | `Series/Model`, `Series/History` | a view holds a copy of its cells; fresh memory is an arbitrary function (`Junk`) |
| codelets.cc `series_bases` on `double`/`Expansion` | `Series/Codelet` | the generated straight-line code is replaced by the series code it was generated from, with the trivial kernels of codelets.cc 372-404 |
| fft.cc, bit.h | `FFT/*` | exact roots of unity in a field; memory model for in-place passes in `FFT/Mem` |
| fft.cc as the kernels of series.h | `FFT/Kernel` | real numbers; the part that `fft_addmul` adds is a function of the operands, `fftAddmul_split` shows that the whole is that plus the destination |
| area.cc, mandelbrot.cc `areas` | `Area/Model`, `Area/Program` | printing and timing left out; the area check is a parameter `accept` |
| series.cc reading and writing, numpy.cc, expansion.cc text | `IO/*` | files are lists of characters; stream failures are prefixes; `%.17g`/`strtod` and Arb conversions are parameters with a stated contract |
| sig.h, sig.cc except `arbitrary` | `Sig/Model` | 64- and 128-bit values are integers with written-out wrap or overflow; random numbers are a list; loops without a static bound take an iteration count |
| exp.h, exp.cc (operators, CSE, args, grad), codelets.cc `Block` | `Sym/*` | expressions are a datatype carrying their signatures; the hash `arbitrary` is a parameter; operands are evaluated left to right (C++ leaves the order open); operation counts left out |
| exp.cc `show`, join.h, codelets.cc `Block::now` | `Sym/Text`, `Sym/TextCode` | `%s` and `%d` as in tinyformat; the text of constants is a parameter; indentation and the frame of functions left out; `Spec/Cpp` covers the operators that are generated, and names are not checked against keywords |
| codelets.cc `gradient`, `mul_bases` | `Sym/Gradient`, `Sym/MulBase` | the work stack and the accumulated derivatives as lists; the lines of the generated `mul_base` and `sqr_base` are run on one memory, in a commutative ring |
| codelets.cc `two_sum`, `two_prod`, `collange_*`; expansion.h, expansion.cc arithmetic | `Float/Format`, `Float/Expansion`, `Float/Product` | floating point numbers of any precision with gradual underflow and no largest number; any rounding to nearest; the generators are run directly on numbers, keeping their tests for the literal 0; inv, /, random numbers left out |
| nearest.h, nearest.cc | `Float/Nearest` | Arb operations are parameters with enclosure contracts; signed zeros are not told apart; the static variable that caches π is left out |
| print.cc, debug.cc `die` | `IO/Print` | strings as lists of characters; buffering and write failures left out |
| series-to-npy.cc, series-exp.cc | `IO/Tools` | files by name; a missing file reads as empty, as `ifstream` does; printing and timing left out; whether a file can be opened for writing is a parameter |
| array.h 20-57, series.h 76-128, 166-226 (lifetimes) | `Runtime/Storage` | one element type; sizes in bytes and overflow left out; addresses are never reused (as in the abstract machine of C++) |
| fft.cc 346-499, codelets.cc 308-369, 496-564, 668-830, complex.h 23-54 (with rounding) | `FFT/Rounded`, `FFT/RoundedText` | standard model of rounding without overflow and underflow; the backward bodies are the operations of the gradient in the natural order, the generator may order sums differently |
| expansion.h 63, 138-171 | `Float/Division` | finite numbers only: division by zero and overflow are not represented |
| README.md 7-23 | `Spec/MandelbrotSet`, `Props/MandelbrotArea` | the mathematical claims, about the true set and Lebesgue measure |
| tests.h 19-61, tests.cc 18-38, 69-130; series.cc 18-57 | `Test/Harness`, `Test/Error` | tests are arbitrary functions; colours of the terminal left out; temporary files are in `Test/Tmp` |
| expansion.cc 101-118, arith.h 32-36 | `Float/Random` | the draws of the standard library are given; numbers as for expansions |
| codelets.cc 54-107, 126, 836-850 | `Sym/Layout` | what the generators write is an arbitrary sequence of lines, scopes and exceptions; a file that cannot be opened drops what is written; running out of disk space is left out |
| cutil.h 40-83, cutil.cc 14-42, array.h 27, 39, series.h 660-680, the launches of loops.h | `Runtime/Stream` | the ordering rules of CUDA streams are assumed as stated in the file; kernels are arbitrary functions of the device memory, each one step; one device, one host thread |
| logo.cc 15-221 | `Logo/Model` | real numbers for doubles, arbitrary random numbers, arbitrary content of fresh memory; reading the series is C32, the PNG library is left out |
| known.cc 28-45, known.h 6-12 | `Known/Table` | strings by their digits, `time` left out; `arb_set_str` is a hypothesis (the ball it returns contains what the string says). The rest of `Known/` models nothing, it is the computation that decides the table |
| arb_cc.h 10-34, acb_cc.h 10-31, arf_cc.h 10-29, mag_cc.h 7-22, fmpq_cc.h 10-30, poly.h 12-45, arb_cc.cc 11-28, acb_cc.cc, arf_cc.cc, fmpq_cc.cc | `Runtime/Wrapper` | one model for the six classes; a number has at most one block; what the library computes is an arbitrary function; text is not modelled |
| codelets.cc 372-457 with series.h 155-180, 304-381, 422-446, 478-540 on expressions | `Sym/SeriesGen` | inputs are declared to the block after the expressions are built, which the block cannot notice; text of the lines is not modelled |
| codelets.cc 188-305 on expressions | `Sym/ExpansionGen` | the structured bindings that load the components are declarations of the names; the repeated passes over `e` and `ep` carry a bound on their number, and running out of it would be an error; negation (lines 273-280) is `Float.negate` |
| codelets.cc 458-830 | `Sym/FFTGen` | the texts and signatures of constants are given; arguments are evaluated from left to right; the lines are a datatype with a meaning on exact complex numbers (`Sym/FFTRun`), so the rounding of the written code is not part of it (C63 has the rounding of the butterflies) |
| exp.cc 249-284, codelets.cc 116, 126, 172, join.h | `Sym/Stats` | counts do not overflow |
| loops.h 20-75 on a card, cutil.h, cutil.cc (streams, copies) | `Device/Model` | one memory; each load or store is one step (sequential consistency of race-free kernels); copies from the host are launches, copies to the host are reads that wait; allocation and errors of the card left out |
| fft.cc 347-499, codelets.cc 324-369, 756-830 on a card | `Device/FFT` | exact reals; accesses in the order loads, then stores; tables of twiddle factors are functions; release of the buffer left out |
| area.cc 152-163, 188-189, known.h 12, mandelbrot.cc 39-99 | `Area/Check` | balls and their contract are parameters; option parsing (a library) left out; doubles in comparisons are extended reals or not a number |
| shutdown.cc, singleton.h, fft.cc twiddle cache | `Runtime/*` | one thread |
| poly.h, poly.cc except printing and statistics | `Arb/Model` | Arb calls are parameters at one precision; aliasing kept only where a routine works in place; `slong` does not overflow |
| series.h, series.cc in memory: storage, views as pointers, `alias` | `Series/Alias`, `Series/AliasHistory` | addresses are a block and an offset, block numbers are not used again; freeing is left out; a pointer outside a block is wrong only when it is followed; products are read from the memory before the result is stored (`FFT/Mem` for `fft_mul`, `fft_addmul`, `fft_sqr`) |
| expansion.cc 34-56, poly.cc 23-38, area.cc 176-187, known.cc 15-26 | `Float/ToArb` | Arb calls are parameters; components are finite; formatting is left out; of the table the numbers of terms only |
| known.cc 8-14 | `Float/Bittner` | `atof` knows digits, a point and digits, a minus sign is left out; doubles do not overflow |
| debug.h 8-17, debug.cc 11-29, `die(e.what())` in five programs, codelets.cc 847 | `IO/Fatal` | tinyformat, a library, by its source: literal text, `%%`, `%s`; `BREAK_ON_ASSERT` not set |
| tests.cc 40-61, tests.h 70-80 | `Test/Tmp` | a file is its contents, a directory the mark that it exists; failures of `unlink` and `remove_all` left out |
| sig.cc 205-214, sig.h 76-80 | `Sig/Arbitrary` | SHA-256 is a parameter; little-endian machine |
| arb_area.cc | `Arb/AreaModel` | as poly.cc; printing is the list of areas printed; the table of known areas is a parameter |

Not modelled: compilers, the operating system, the CUDA driver and its errors, overflow of floating point exponents, the test cases (only their runner is), the library that writes PNG files.

## Where the code and the claims disagree

Each item is proved as a theorem on the model (name contains `witness`, or is named) and the property is stated with the condition that excludes it.

* `random_expansion` breaks the invariant of expansions if a draw is exactly zero, because the exponent of zero is zero (C74).
* The code generator reports success for a path that cannot be opened, having written nothing (C75).
* `cuda_sync` waits only for `stream()`, not for loops, which are issued to the default stream (C76).
* `bittner` of known.cc checks its result by formatting it with one decimal, which does not notice a lost unit: the literal `4.1M` would give 4099999 terms (`C81_lost_witness`). The literals in the table are exact (`C81_table`).
* `arbitrary` puts the name before the operands without a mark between them, so a name of 32 bytes can be the bytes of an operand (`C80_long_witness`); the names in the code are shorter.
* `Tmpfile` never closes the descriptor that `mkstemp` returns (C79: `C79_leak_witness`).
* `die(e.what())` in five programs takes the template overload of `die`, so the message of the exception is a format string: a `%` in it, as in the name of an output file that exists, aborts the program without a message (C78: `C78_percent_witness`). Theorems on the programs that say that an exception ends in `die` (C59, C60) do not look at the message.
* `Poly::stats` prints the range `[inf,-inf]` and the radius `-inf` for the polynomial without coefficients (`C77_stats_tight`). An area published for a power of two would be reported in two steps (`C77_twice`); the table has none.
* `set_counts` accepts a negative known count; shifted addition accepts a negative shift (C05, C08).
* `mul`, `mul1p` and `inv1p` throw for some operands without stored terms (C09, C11, C14).
* `map_reduce` with more than one thread needs an associative `reduce`; grid-stride kernels truncate to 32 bits (C04).
* A direct call of `fft_mul` with too small a result wraps around; one-cell transforms and lengths beyond 2^28 are undefined (C21-C23).
* A shutdown hook that registers a hook is undefined (C50).
* `bottcher_step` overflows `int` at k = 30 and above; `known_to_k(0)` is undefined (C28, C31).
* `read_series` accepts missing and empty files, files cut inside the comments, and files cut inside the last number; comments that look like counts make a file unreadable (C32, C33). A resumed run on a file cut after its comments is undefined (C34).
* `write_series` with a batch size below 1 does not end (C32); `write_series_npy` truncates counts to `int` (C35).
* `set_counts` can expose cells that were never written (C52).
* `is_prime` rejects the primes 13, 19, 73, 193, 407521 and 299210837, because they divide one of its bases; `is_prime(1)` is undefined (C38: `C38_rejected`, `C38_one`). The search for fields never meets them.
* `Sig << 31` multiplies by -2^31 and larger counts are undefined; `pow(Sig, n)` with negative `n` uses the exponent 2^64 + n (C36, C37).
* With inexact signatures (`CSE(false)`) sums, differences and products of the same two operands get the same signature and are confused (`C40_inexact_confused`). The generated operators on expansions do not meet this where it was checked (the cases beside `C71_operator`). `arbitrary` is not reduced modulo the primes (`C80_unreduced_witness`: a digest above the modulus is not negated correctly); the model of expressions assumes it is.
* Negating the literal -2^31 is undefined (`C39_int_min`).
* `gradient` counts twice an output that is repeated or is a part of another output (`C42_repeated_witness`: (4, 4) in place of (2, 2)), and fails with an assertion for an input that no output contains (`C42_unreached`).
* A `Block` fails with an assertion when it meets two different expressions with one signature, such as -((a-b)*c) and (b-a)*c (`C41_refused`).
* `two_prod` loses the error when the product underflows: (2^-600)^2 gives (0, 0) (`C44_underflow_witness`).
* The documented invariant of `Expansion` (a unit in the last place per component) does not make `==` equality of values (`C46_eq_witness`), nor `sign` right among subnormal numbers (`C46_sign_witness`).
* `Expansion(int64_t)` is undefined for integers above 2^63 - 512 (`C46_int64_ub`).
* `round_nearest` accepts any enclosure whose lower bound rounds to something infinite, so an unbounded enclosure at the first precision is returned as the answer (`C47_infinite_witness`). `nearest_sqrt` with a negative denominator divides by 2^64 + b (`C47_sqrt_negative`).
* `nearest_twiddle` is undefined when 2a leaves 64 bits or b = 0; `nearest_twiddles` divides by zero on an empty table and overflows `int` at 2^31 entries (`C48_twiddle_ub`, `C48_ub`).
* A printed line is cut at a NUL byte (`C51_nul_witness`).
* The last step of `poly_exp_refine` multiplies by the enclosure of exp(F) where the mean value theorem needs the reciprocal of a mean of the reciprocals. There is an interval arithmetic that encloses in every operation for which the routine returns a polynomial that misses the exponential (`C49_exp_witness`: the coefficient of z^3 comes out as -2/3 in place of 0). The same kind of step ends `poly_expm1_shift_refine` and `poly_log1p_exp_shift_refine`. Dividing by an enclosure of the reciprocal in place of multiplying would be sound. Whether Arb's own enclosures ever lead there is open: the known areas are overlapped.
* `poly_add_shift_series` and `poly_sub_shift_series` with a negative shift write before the buffer (`C49_shift_negative`).
* `arb_areas` with more than 30 steps overflows `int` after 60 areas (`C55_overflow`).
* `Exp(1) / 3` is written `1 / 3`, which is 0 in C++ (`C56_literal_division`); more generally arithmetic on two literals is done in `int`. Members of literals would be written `3.r`, which is no expression (`C56_member_of_literal`). A negation of a negation would be written `--x`, but the operators never build it (`C56_double_negative`, `C56_built`). None of this is reached by the generated files.
* `series_bases` calls `compute` twice for each output (codelets.cc 434-435), so the operation counts in the closing comment count its last operations twice; the code is the same.
* `y = y` and `y = y.low(n)` call `std::copy` with the destination inside the source, which the library does not allow (`C57_self_assignment`). On a device, `y = neg(y.high(n))` and the other elementwise functions depend on the order of the iterations (`C57_order_witness`). A series with storage but without stored terms is refused as its own operand although nothing overlaps.
* `mul1p` forms `z.data() + s` also when the storage of `z` is shorter than `s` (series.h 192, 291); the pointer is never followed.
* `series-to-npy` with an input that does not exist writes a table without rows and succeeds (`C59_missing_witness`). `series-exp` makes room for the stored terms only and refuses a series with fewer than five stored terms and trailing zeros (`C59_exp_trailing_witness`).
* Areas beyond `k = 16` are not compared with anything (`C60_unchecked`). Without `-k` the program goes on until `1 << p` overflows or an assertion fails (`C60_endless`). `-k` below the range of `int` is undefined (`C60_k`).
* Loops are launched in the default stream (loops.h 35), while serial kernels, allocation and copies use `stream()`. Nothing in the code orders the two; the legacy default stream does. With a default stream per thread (a compiler option) the second of two kernels can run first (`C61_stream_witness`).
* `Array(size)` does not check `malloc` (array.h 40-42): without memory the object has `size() > 0` and null data, and its first use is undefined (`C62_malloc_witness`).
* The test program succeeds without running anything if no test has one of the names given (`C66_unknown_names_witness`), and says `n tests ran` with the number of registered tests (`C66_ran_witness`). `ASSERT_THROW(..., error)` takes a failed assertion inside for the expected exception, because the name of its type contains `error` (`C66_throw_own_witness`). The distance of series ignores NaN: a series of NaNs is at distance 0 from every series with as many stored terms (`C66_error_nan_witness`).
* `Canvas` never clears its colours, which come from `malloc`: where no circle is, the picture shows what the memory held (`C67_junk_witness`). logo.cc also never calls `png_write_end`, so the file has no end marker; this is outside the model.
* `operator<<` of the wrappers never frees the buffer of `open_memstream` (`C69_print_leaks_witness`); `x = move(x)` makes `x` zero (`C69_self_move_witness`).
* series.h says that `mul` may overwrite its operands, and `inv`, `div` and `exp` rely on it, but in the generator the multiplication (codelets.cc 393-404) is a loop that destroys an operand it overwrites (`C70_in_place_witness`). The five terms that are generated are right all the same (`C70_inv_base`, `C70_exp_base`); with ten they would not be (`C70_ten_terms_witness`).
* `constant_twiddle(j, s)` (codelets.cc 576-586) takes its signatures from the powers of `-1`, `i` and `(1+i)/√2` for `s` = 1, 2, 3, but its values from `nearest_twiddle(j, 2<<s)`, the powers of `i`, `(1+i)/√2` and the next root. Signature and value agree for `j = 0` only. It is called with `j = 0` only, so the written code is right; with another `j` equal signatures would not mean equal values. The model takes both as given, and C72 asks that equal signatures mean equal values.
