# Formal model of hamsham/BigNum in Lean 4 — design

## 1. What is modelled

The library is a header-only template (`Bignum<limits_t, container_t>`), so the model is
parametrised in the same way: a `Limits` record holds the C++ types of a single and a double
digit and `bn_max_limit`, and a container is a `List Nat` (least significant digit first, as in
the code). Every definition in `lean/Verif/Model/` cites the lines of `/repo` it models.

| model module | source | content |
|---|---|---|
| `Model/Basic`   | –                               | outcomes: value / exception / undefined behaviour / out of fuel; loops with fuel |
| `Model/CInt`    | C++11 [conv], [expr]            | integer promotion, usual arithmetic conversions, wrap-around, signed overflow, division by zero, shifts |
| `Model/IntType` | `impl/bn_int_type_impl.h`       | `BNIntType<uintN,id>` operators, on top of `CInt` |
| `Model/Limits`  | `bn_limits.h`, `impl/bn_limits_impl.h`, `bn_int_type.h:139-153` | limits, the seven presets, base 256 of the tests |
| `Model/Vec`     | `std::vector`                   | checked reads/writes/erase/insert (out of range = UB), push_back/resize that may throw `bad_alloc` |
| `Model/Compare` | `impl/bn_compare_impl.h`        | the five magnitude comparisons, index loops |
| `Model/Add`, `Model/Sub` | `impl/bn_addition_impl.h`, `impl/bn_subtraction_impl.h` | loop bodies with every intermediate conversion, including aliased arguments and `BN_DEBUG` |
| `Model/Div`     | `impl/bn_division_impl.h`       | `shift_left_1`, nested search loops |
| `Model/MulNaive`| `impl/bn_multiplication_impl.h:68-98` | schoolbook product with its single-width accumulator |
| `Model/Fourier`, `Model/MulStrassen` | `impl/fourier_impl.h`, `impl/bn_multiplication_impl.h:15-61` | FFT pipeline over abstract floating-point operations, rounding, carry pass, trim |
| `Model/Type`    | `impl/bn_type_impl.h`           | class `Bignum`: constructors, accessors, comparison, compound arithmetic with its `catch` blocks, streaming |
| `Model/Assert`  | `src/bn_except.cpp`             | `bn_runtime_assert` |
| `Model/Compress` | `tests/compress_test.cpp`      | the client that turns text into bits and back through division and multiplication |
| `Model/IntegerTest` | `tests/integer_test.cpp`, `operator>>`/`operator<<` of BNIntType | the operator exercise; reading and writing a BNIntType with default flags in the C locale |
| `Model/ArithTest` | `tests/arithmetic_test.cpp:18-66` | the values computed by the macro CREATE_BN_TEST |
| `Model/Format`  | `operator<<` (`impl/bn_type_impl.h`) on a stream with flags | dec/oct/hex, showbase, uppercase, adjustment, fill, width; padding and prefixes of one integer or string as in [facet.num.put.virtuals] |
| `Model/Locale`  | `operator<<` on a stream with a locale | `numpunct`: grouping and separator; integers grouped as libstdc++ does, characters and strings not |
| `Model/Narrow`  | the product (`impl/fourier_impl.h`, `impl/bn_multiplication_impl.h`) | with a `size_t` of w bits |
| `Model/Stream`  | `operator<<` (`impl/bn_type_impl.h`) on a stream whose device may refuse characters | `good()`, `exceptions()`; a refused character ends the formatted output and sets `badbit`; no buffering |
| `Model/Moments` | the operators again | the same functions with a separate answer of the allocator for every request |
| `Model/Storage` | `operator+=`, `operator-=`, `resize`, `clear`, `push`, `push_back`, `pop`, `pop_back`, subscript, `setDescriptor` again | the same functions on a vector with a capacity. The capacity never shrinks in place; a copy has its size as capacity; a moved vector takes its storage along |
| `Model/Binary64` | the type `double` | IEEE 754 binary64, one of the possible `FloatOps` |
| `Model/Binary32` | the type `float` beside `double` | IEEE 754 binary32 with the conversions between the two types |
| `Model/Directed64` | the type `double` when rounding modes change | IEEE 754 binary64 with all four modes, one for every operation |
| `Model/Clock`, `Model/Moment64` | the multiplication again | the same functions with a separate arithmetic for every floating-point operation; binary64 with the modes of one moment |
| `Model/Heap` | the compound operators, the binary operators, `abs_val_add`, `abs_val_div`, `mul_strassen`, the transforms again | the same functions with a count of free bytes: new storage is taken before the old one is returned; a scope returns its vectors, also when an exception leaves it. No fragmentation, no overhead of an allocation |
| `Model/World` | constructors from digits, assignments, `resize`, `push*`, `pop*`, `clear`, all operators again | statements of a program with the capacity of each number. `resize` and the constructors ask for what the growth policy of the vector says; a moved vector takes its storage along |
| `Model/Cost` | the operators and all they call | the same code counting loop passes, copied and appended elements; `C114_same_results` ties it to the rest |
| `Model/Concurrent` | client code in threads | statements of several threads that overlap: operands are read when a statement begins, objects written when it ends; data races within a statement are not given a meaning, the allocator answers per statement |
| `Model/Swap` | `std::swap`, `std::reverse`, `std::rotate` on Bignum objects | the general templates of the standard library over the move members; a vector moved into itself holds an arbitrary list; `std::rotate` as three reversals |
| `Model/Container` | `std::vector` of numbers (libstdc++'s order of events: storage, new element, old elements) | growth policy is a parameter; places are indices; the destructor never fails |
| `Model/Control` | client code with `if` and `while` | small steps; conditions compare two named objects; a statement with undefined behaviour or without end has no next configuration |
| `Model/Program` | client code                     | sequences of calls on named objects, copy assignment with its failure state, exceptions caught per statement |

### Modelling decisions
* **Undefined behaviour is an outcome** (`Fault.ub kind`), never assumed away: out-of-range vector
  access, `%` by zero, signed overflow after promotion, bad shifts, out-of-range `double`→integer.
* **Loops take fuel**; running out of fuel is the outcome `timeout`. "Terminates with r" is
  `∃ n₀, ∀ n ≥ n₀, run n = r`; "diverges" is `∀ n, run n = timeout`.
* **Memory**: an `Env` carries `alloc : Nat → Bool`, which says whether a container of n elements can
  be obtained. Simplification: within one operation the answer depends on the size only, not on the moment, and vector
  capacity is not tracked. `Model/Moments` drops both: every request of an operator, including those of the recursive
  Fourier transform, has an answer of its own, so spare capacity is a granted request. C111 proves that this adds no outcome. In programs (`Model/Program`) every statement has its own `Env`. Every theorem is for all `alloc`.
* **Aliasing** (`a += a`, `a -= a`, ...) is modelled by a separate right-operand constructor `Rhs.self`.
* **Floating point**: the FFT is written once over a record of operations `FloatOps F`. Theorems about it
  are (a) for exact complex arithmetic (C22), (b) for *any* operations whatsoever (C11, C26, C30, C55, C59), or
  (c) for any operations obeying the laws `Ieee` of `SpecFloat.lean` (C24, C25, C39, C40): relative error
  (1 + 2^-10)·2^-53 per operation in the normal range (so that a result may be rounded to 64 bits first), absolute error 2^-200 in products/quotients (far more than underflow needs), integers
  to 2^53 exact, `floor`/conversion exact, `sin`/`cos` within 4·2^-53 on
  [-4, 4], π within 2·2^-53. `roundIeee` (`Lemmas/RoundOps.lean`) is a model of these laws, so they are consistent.
  `Laws f` (`SpecFormat.lean`) are the same laws for another format f, e.g. `Format.single` (C135, C136).
  That only even numbers occur from 2^53 on is a separate hypothesis (`Ieee.NoExcess`), needed for three theorems of C25 only.
  `Model/Binary64` is `double` itself: binary64 data with subnormal numbers, signed zeros, infinities and NaN. C113 proves the
  laws for it, so that what remains assumed is the accuracy of the library's `sin` and `cos` (`MathLib.Accurate`).
  `Model/Binary32` is `float` likewise (`MathLib.AccurateSingle`).
  Assumed of the compiler: `double` is binary64 (excess precision is allowed, C134), no reassociation (`-ffast-math`), and `std::complex`
  products of finite numbers are the textbook formula. Sums of products (they occur only there) may be contracted into fused
  multiply-adds, differently for different operands (`FloatOps.mulSub`, `mulAdd`; C130). NaN payloads and status flags
  are not modelled; the `fin` predicate of `Ieee` shows that NaN and infinities do not arise in products.
* **Streams**: digits of 8-bit types are written as characters (that is what `operator<<` of `uint8_t` does);
  formatting flags of the stream are the default ones except in C97–C99 (`Model/Format`), the locale is the classic one except in C132, C133 (`Model/Locale`), and the stream never fails except in C124 (`Model/Stream`).
* `size_t` indices are natural numbers (no container has 2^64 elements). `size_t` has 64 bits; `Model/Narrow.lean` has the product for any width.

### Not modelled
locales other than their digit grouping (`Model/Locale`), buffering of streams, the CMake/test
harness, memory layout, vector capacity other than in `Model/Storage`, `Model/Heap` and `Model/World`, run time other than as the number of steps (`Model/Cost`), `constexpr`-ness, explicit template
instantiation, exception `what()` strings other than as tags.

## 2. Trusted base
Lean's kernel; axioms at most `propext`, `Classical.choice`, `Quot.sound` (checked with
`#print axioms` in `Verif/Audit.lean`); the reading of the C++ source and of the C++11 integer rules
in `Model/CInt`; the stated laws of floating point (`Ieee`, an explicit hypothesis of each theorem that needs it, proved for binary64 with accurate
`sin` and `cos` in C113).
Every property theorem depends on a subset of `propext`, `Classical.choice`, `Quot.sound` (about a fifth need less);
run `lake env lean Verif/Audit.lean` to list them.
No `sorry`, no added axioms, no `native_decide`/`bv_decide`.

## 3. Specification vocabulary (`Verif/Spec.lean`)
`natOf B l` – value of a little-endian digit list in base B; `Bignum.toInt` – signed value;
`InRange`, `NoLeadingZero`, `WF` – well-formed number; `Evaluates`, `Diverges`.

## 4. Plan per property
Beside each theorem an `example` applies it to concrete numbers; the numbers, and the tactic `sample` that discharges
their hypotheses, are in `Verif/Lemmas/Samples.lean`.

Property theorems are in `Verif/Props/*.lean`, one section per property id, each with an `example`
that meets its hypotheses. "refuted" = the unchanged code violates the property; the negation is proved
with a concrete witness and the part that does hold is proved as `..._partial`.

| id | model | proof |
|---|---|---|
| C01–C02 | `Bignum.eq`, `abs_val_is_eq` | index loop ↔ list equality; uniqueness of positional notation |
| C03 | `abs_val_is_ge/le` | index loop = order of `natOf` for lists without leading zero, induction on length |
| C04, C06, C07 | `abs_val_is_gt/lt`, operators | refuted (19 > 21 and 21 > 19; -5 > -5); partial: no false negatives, single digits, different lengths |
| C05, C08 | same | exact characterisation by induction; case split on descriptors |
| C09–C14 | `abs_val_add`, `operator+=` | loop invariant: processed digits + carry·B^i = sum of processed prefixes; then case split on signs |
| C15, C18–C20 | `abs_val_sub`, `operator-=` | same with borrow; trim lemma |
| C16, C17 | `operator-=` | refuted (5-(-3)=2) + exact characterisation |
| C22 | `fft_complex` … `convolute_fft` over ℂ | recursion = DFT by induction on the exponent; inversion via geometric sums; conjugate trick; convolution theorem |
| C23, C30 | `mul_strassen`, `operator*=` | rounding of a number within 1/2 of an integer; carry pass invariant |
| C24 | FFT with rounded operations | max-norm forward error analysis by induction on the recursion, then C23 |
| C25, C26, C29 | same | refuted by witnesses (overflow of double→uint16, 2^53 gap, infinite recursion, lost carries) + partial |
| C27 | `nextPow2`, `isPow2` | bit-smearing invariant; counterexample above 2^32 |
| C28 | `mul_naive` | loops with 32-bit counters tied to structural loops, then a double loop invariant |
| C117 | `mul_naive` | counters below 2^32 never leave the loops; the states passed through by the product of two powers of the base |
| C31–C35, C58 | `abs_val_div`, `operator/=` | inner loop doubles until 2^k·d > n, outer loop subtracts; strong induction on the dividend; divergence and division-by-zero UB proved for zero divisors / native types |
| C36–C39 | descriptors | case analysis; C38 refuted + partial |
| C40 | `catch` blocks, all `alloc` | every exception path of the body goes through the handler |
| C41–C46 | accessors, constructors | list lemmas about `natOf` |
| C47–C48 | `operator<<` | digits of `Nat.toDigits`; C48 refuted for base 16 and native digits; it holds exactly for bases up to 10, or 45 with 8-bit digits |
| C49–C52 | `BNIntType` | unfolding `CInt` at the four widths |
| C53–C54 | limits, assertion | case analysis over presets plus arithmetic |
| C55, C59 | `Model/Program` | invariant by induction on the statement list; digit range / well-formedness of each operator for any budget and allocator |
| C56–C57 | `BN_DEBUG` branch | refuted (21-19 throws) + partial |
| C58 | all loops | decreasing measures for every input; budgets only matter until the loop ends (`Lemmas/Mono`) |
| C61 | `Model/Compress` | refuted (non-ASCII text, empty text); exact output for ASCII: bits packed so far = text mod 2^k as loop invariant, first division by C62 |
| C62 | operators on padded numbers | refuted (05 / 2 = 52) + exact results: the subtraction inside the first round wraps around |
| C63–C64 | `Model/Program` | simulation: each statement inside its guard refines the integer statement; induction on the program. C63 refuted (a = 1, b = 3 ends with 0) |
| C65–C66 | `Model/IntegerTest` | unfolding `CInt` at the int width; decimal digits of a natural number and the scanner over them; refuted + exact domain |
| C67 | `mul_strassen` | the totals of the carry pass for maximal digits in closed form; the first total that does not fit stops the pass |
| C68 | `mul_strassen` | the carry pass succeeds exactly while the schoolbook column totals fit the double-width type; coefficients are exact by the error bound |
| C69 | `abs_val_div` | each round halves the dividend, each doubling halves the gap to it: every loop ends within bits(a) + 2 iterations |
| C70–C71 | debug against release builds | relation "same outcome or underflow" closed under bind and loops; exact condition from C56; induction over programs |
| C72 | `operator*` | the product is the canonical object `Nat.digits base (m*k)` with the sign rule, so the laws are those of numbers |
| C73–C74 | client loops over the operators | remainder = canonical object of m mod k; Euclid's invariant; both refuted for equal magnitudes |
| C75 | public functions of `fft.h` called directly | values of `fft`, `ifft`, their composition and `convolute` over ℂ for every power-of-two length; `DFT`/`InvDFT` are stated as plain sums |
| C76 | `fft_complex` on other lengths | exact recursion on the halved length; odd lengths lose their last cell, the empty list recurses for ever; refuted and partial |
| C77 | the same functions in IEEE arithmetic | energy of the rounding error of one transform and of transform-then-inverse, any finite double input |
| C78–C79 | `operator<<`, list constructor, `operator*`, `operator+` | `ofList` builds the canonical object of the Horner value; text of a canonical object is `Nat.toDigits`; Horner loop by induction on the text |
| C80–C81 | clients over `operator*`, `operator/` | canonical objects of products (C72) and quotients (C31); repeated squaring by induction on the binary exponent |
| C82 | `operator>=`, `operator-`, `operator==` | both reduced to the magnitudes (C03, C15) |
| C83 | `tests/arithmetic_test.cpp` macro (`Model/ArithTest.lean`) | the twelve results for all opposite-sign operands, the exact values printed by the program |
| C84 | client: product of a list | induction over the list with the exact product (C23) as step |
| C85 | client: Fibonacci loop | induction with the exact sum (C09) as step |
| C86 | client: counting loops with `<` and `>=` | exact end of the loop from the digit-wise meaning of `<`; counterexample and the two right variants |
| C87, C88 | client: `std::max`, insertion sort | generic over a comparison that never contradicts the order; `<=` satisfies it, `<` does not |
| C89 | client: Newton iteration for the square root | invariant m < (x+1)^2; the wrong first quotient m/m = 0 is harmless for m >= 3 |
| C90 | client: radix conversion by repeated division | exact list of digits produced, compared with `Nat.digits` |
| C91 | sign symmetry of all four operators | outcome of the run with changed signs is the opposite outcome, by unfolding the four sign cases |
| C92 | (a/b)/c against a/(b*c) | quotient function of the code on magnitudes, exact criterion for agreement |
| C93 | digit shifts against products, quotients and remainders by the base | uniqueness of the normalised object |
| C94 | client: factorial loop | numerals as loop states |
| C95 | client: trial division | the divisor never equals the number while d*d <= m, so the wrong quotient x/x is never met |
| C96 | client: modular exponentiation | the loop is related to a recursion on natural numbers that includes the two failures; every round keeps the congruence |
| C97 | `operator<<` with radix flags | text as a concatenation of pieces, injectivity of numerals |
| C98 | `operator<<` with a width | refuted (only the first piece is padded) + exact text and length |
| C99 | `operator<<` with showbase | refuted (a prefix per digit) + exact text |
| C100 | exception types of the whole API | refuted (operator[]) + exact types elsewhere; all operands and surroundings |
| C101 | `operator/=` in debug builds | rounds of the long division indexed by the binary digits of the quotient |
| C102 | comparison operators on NaN and infinities | refuted + exact answers of all operators |
| C103 | client: least common multiple | C74 and the exact quotient; refuted for equal numbers and for a divisor first |
| C104 | client: bisection, square root | interval invariant; refuted at the interval 0, 2; which upper ends fail with lower end 0 |
| C105 | `size()` of numbers and results | bounds of the magnitude by powers of the base |
| C106 | operators in little memory | relation "equal, or a failed allocation" between two runs, closed under the loops; sizes of all intermediate lists |
| C107 | programs in little memory | the same relation, statement by statement |
| C108 | products and programs on two platforms | both give the canonical digits of the product |
| C109 | operators in any environment | C106 and C70 composed; monotonicity in the step budget |
| C110 | programs in any environment | statement by statement from C109; C64 for the values |
| C111 | operators, every request for memory on its own (`Model/Moments`) | comparison of two families of answers through the loops; agreement with the one-answer-per-size model |
| C112 | programs, every request for memory on its own | statement by statement from C111; C64 for the values |
| C113 | `double` as IEEE 754 binary64 (`Model/Binary64`) | rounding is nearest-even with the standard's overflow threshold; the laws `Ieee` follow for every accurate sine and cosine |
| C114–C116 | run time (`Model/Cost`) | steps of comparisons, sums and differences are linear, of products n log n, of quotients cubic, with exact counts of subtractions and doublings |
| C118 | threads (`Model/Concurrent`) | a turn of another thread leaves everything a thread uses alone; simulation by the thread running alone |
| C119 | `abs_val_add` on arbitrary digits | column totals modulo 2^w, carry at most 1, loss per column |
| C120 | move members, `std::swap` (`Model/Swap`) | case analysis on the object; permutations compose |
| C121 | every allocation of the operators (`Model/Moments`) | `Asks`: a computation paired with the list of its requests, composed along the binds (`Lemmas/Requests`); for division with loop invariants that contain the number of requests so far (`Lemmas/RequestsDiv`) |
| C122 | `mul_strassen` | the carries of inexact columns are bounded below by those of exact ones up to a constant (`Lemmas/MulLong`), so the totals pass 2^32 |
| C123 | `abs_val_add`, `abs_val_sub`, `mul_strassen` | the largest digit added to itself, resp. subtracted from the base, wraps around the digit type; the square of `2^(w/2)` does not fit |
| C124 | `operator<<` on a failing stream (`Model/Stream`) | longest accepted prefix of a concatenation, piece by piece |
| C125 | `operator<`, `operator<=` under `std::set`, `std::binary_search` (client models in `Props/OrderedSet`) | exact criterion for a strict weak ordering; invariant of a search tree under insertion and arbitrary rebalancing |
| C126 | `abs_val_add`, `abs_val_sub`, `mul_strassen` for every pair of built-in digit types (`Limits.pair`) | `Native` covers all pairs with a wider double type; the other pairs lose a carry on a concrete operand of each width; products decided by the column totals |
| C127 | `Model/Control`: statements, `if`, `while` over the model of the operators | comparisons characterised by sign, length and digits; step-by-step simulation of the integer program by induction on the run, determinism for the converse |
| C128, C129 | `Model/Container`: `std::vector<Bignum>` over the copy and move members | every request with an answer of its own; exact outcome of each call, then induction on the history; potential function for the number of copies |
| C130 | `Cx.mul` (`std::complex` multiplication) with `mulSub`, `mulAdd` | the rounding-error laws allow either product to stay unrounded; binary64 with `fma` satisfies them |
| C131 | `nextPow2`, `create_fft_table`, `convolute_fft`, carry of `mul_strassen` with `size_t` of w bits (`Model/Narrow.lean`) | w = 32 gives the product of the 64-bit model |
| C132, C133 | `operator<<` on a stream with a grouping locale (`Model/Locale.lean`) | separators inserted as libstdc++ does, base prefix not grouped |
| C134 | the transform and the product with results of 64 bits (`Excess` in `Props/Excess.lean`) | exponents unbounded; kept or rounded freely at every operation |
| C135, C136 | the error analysis of the transforms again for any format (`SpecFormat.lean`, `Lemmas/PrecErr*.lean`), instance single precision; `floatOps` has the C++ types of every intermediate value; so has `binary32`, with the exponent range, infinities and NaN of the format (`Model/Binary32`, laws proved in `Lemmas/Single32.lean`) | the double analysis is not derived from it |
| C137 | `longOps` in `Props/Single.lean`: C77 through `Excess`; refuted by the entry cos of half the rounded pi | 64-bit long double, exponents unbounded |
| C138 | `modeOps` in `Props/Rounding.lean`: the error analysis for `Format.anyMode` (twice the unit of roundoff), then exactness of the rounded columns | exponents unbounded in `modeOps` (bounded in C152); the conversion of the rounded coefficient to an integer truncates in every mode, as C++ demands |
| C139 | client loops `slowMul`, `slowDiv`, `slowGcd` in `Props/Workaround.lean` over the modelled `+`, `-`, `>=`, `push_front` | shows which operators a caller can build exact arithmetic on, whatever the digit type |
| C140 | `retry`, `runRetry` in `Props/Retry.lean` over `Op.stepM`; an attempt that throws changes nothing, one that returns does what it does with unlimited memory | `x op= y` and `x = y` excluded, see C40 and C60 |
| C141 | `ceilDiv`, `roundDiv` in `Props/RoundQ.lean`; refuted where the dividend equals the divisor | |
| C142 | `AnyMode` of `Props/Rounding.lean`; `energy`, `sqDist`, `DFT` of C77; `numbers` in `Props/RoundingFft.lean` | unbounded exponents (bounded in C152) |
| C143 | `Model/Storage`: `Held` = number, capacity, number of moves of the digits; the growth policy `g` is a parameter | refuted: the branches with a copy replace the storage; all others proved to work in place |
| C144 | `addAssign`, `subAssign`, `divAssign` on arbitrary digits and descriptors, any allocator, both builds | `Harmless` (Lemmas/Harmless.lean): loop invariants on indices and digit ranges only |
| C145 | `mulAssign` on digits beyond the base | `mulStrassen_raw`: the carry pass computes the column totals (`columnTotal`) and drops what is beyond the table; the transform error is bounded by the largest digit, not by the base |
| C146 | client loop `inverse` (and `textbookCoefficient`) over `div`, `mul`, `sub`, `add`, `ne` | invariant t·x + s·y = m and the congruences of both coefficients; all objects are canonical numerals |
| C147 | client loop `expand` over `mul`, `div`, `sub`, `ne` | recursion on the number of digits; the remainder after i digits is c^i·a mod b |
| C148 | client comparison `less` over `size`, `at_`, `isNegative` | the loop is the comparison of the lowest n digits; sets, sorting and searching by the theorems of C88 and C125 |
| C149 | client container `Hash.run`, `Hash.find` over `eq` | invariant: every key is in its bucket, once; `eq` decides equality of objects (C01) |
| C150 | client functions `fromLL`, `toLL` over `pushBack`, `setDescriptor`, `at_`, `isNegative` and C++ integers | Horner's rule modulo 2^64; remainders are the digits |
| C151 | client operations `safeAdd`, `safeSub`, `safeMul`, `safeQuo`, `safeRem` over C139, C148, C150; programs `Cmd` over any `IntOps` | simulation: same fuel, related stores; every fault of the integer program is the fault of the library program |
| C152 | `directed64` (`Model/Directed64`): binary64 with a mode and a contraction chosen at every operation by the computation of the operands | laws of `Format.anyMode` proved from the definition of rounding (`Lemmas/Directed64.lean`); the rest as C138 and C142. Equal computations are rounded alike, also in C138 and C142 (C153 drops this) |
| C153 | `Model/Clock`: the multiplication as a computation that counts its floating-point operations, each done by the arithmetic of its moment; `LawfulAt` (`SpecClock`); `moment64` (`Model/Moment64`) | the operations are numbered in one order that C++ allows (left operand first); as the arithmetics of the moments are arbitrary, any other order is the same with the arithmetics permuted. Excess precision with wider intermediate data is covered as far as it obeys `LawfulAt` |
| C154 | the clock of `Model/Clock` | `Ticks` (`Lemmas/ClockCount`): ticks added along the binds |
| C155 | the clock of `Model/Clock` under `LawfulAt .double` (`Lemmas/ClockNearest`); `Keeping` (`Props/ClockNearest`): how results are kept at one moment | `Keeping` has real numbers, exponents are not bounded |
| C156 | `Model/Heap`: the operators as computations on a count of free bytes and the capacity of each vector; sizes and growth policy are parameters | `Tidy`: what is taken is returned, along the binds and scopes (`Lemmas/Heap`); `Suffices`: within given capacities no request fails (`Lemmas/HeapFit`); the product computed exactly |
| C157 | `Model/World`: programs as in `Model/Program`; each number has a capacity, and the bytes that are free are counted | every statement ends as with one of two allocators (`Tied`), keeps capacity above length (`Grants`, `Spares`: `Lemmas/World`, `Lemmas/WorldStep`), and has an amount of memory that suffices (`Settles`: `Lemmas/WorldAmple`); induction on the program |
| C158 | `Model/World` | every operator leaves the capacities within C (`Capped`, `Suffices`) and ends as with unlimited memory (C156); the bytes are conserved (C157), so each statement finds the same room; induction on the run (`Lemmas/WorldRoom`) |
| C159 | `abs_val_sub` and the comparisons on arbitrary digits | the subtraction loop on raw digits is `rawDiff`, columns modulo `2 ^ w`; where the column differences fit, each step keeps value but for the borrow; induction on the digits |
| C160 | client programs on the operators (`powBig`, `rsaKey`) | C96 for each digit of the exponent; n = p q is squarefree, so it divides no power of a message below n; Fermat's little theorem modulo p and q |
| C161 | `divAssign` on digits of the whole type (bn_division_impl.h, bn_type_impl.h:639-702) | the search loop in the order of `>=` ends at one doubling of the divisor; the first difference is exact (C159) and normal, then C31 applies; a digit that keeps its value forever |
| C162 | client class `Frac` over the class of C151 | Euclid's algorithm gives the gcd up to its sign; numerator and denominator of Mathlib's ℚ; programs by simulation, as C151 |
| C163 | client functions `agree`, `encipher`, `decipher` over `powBig` (C160) and `inverse` (C146) | no power or product of numbers above zero and below a prime is zero or the prime itself, so that every remainder on the way is one that the library computes |
| C164 | client functions `halvings`, `squarings`, `millerRabin` over `powBig` (C160) | `StrongProbable` is the textbook's test; bases no power of which is a multiple of m, so that no remainder is zero; the halving loop stops at 2 |
| C165 | client functions `fibStep`, `fibBits`, `fibOne`, `fibZero` | bits by `Nat.bits`, `Nat.fib` of Mathlib; the lengths of two factors exceed the length of the product by at most one |
| C166 | client functions `binomStep`, `binomLoop`, `binom` | `Nat.choose` of Mathlib; a dividend equals its divisor only if the coefficient is 1, that is for k = n |
| C167 | client function `crt` over `inverse` (C146) | the sum is a multiple of m n only for two zero residues, and is then the zero with one digit (0 + 0), whose remainder is defined |
| C168 | client function `quotients` | strong induction on the divisor; the value of a continued fraction is defined over Mathlib's ℚ, apart from the model |
| C169 | client function `lucasLehmer` | s² + m - 2 is never m, so no quotient of equal numbers occurs; after a zero the sequence is m - 2, 2, 2, ..., so a prime meets no zero before the end; Mathlib's `lucas_lehmer_sufficiency` and `lucas_lehmer_necessity` |
| C170 | client function `pepin` over `powBig` (C160) | three is prime to every Fermat number from five on; both directions of Pépin's theorem (`pepin_iff`) |
| C171 | client function `horner` | the value of a polynomial is defined by powers (`polyValue`), apart from the loop; every partial value times x is at most the value, which bounds its digits |
| C172 | client function `pratt` over `powBig` (C160) | a prime factor of m - 1 that is m - 1 itself occurs for m = 3 among the primes only; Mathlib's `lucas_primality` and `reverse_lucas_primality` |
| C173 | client function `collatz` | only two has one as its successor, and for it the quotient is wrong; from two on the map stays at least two |
| C174 | client function `ilog` | strong induction on x; b / b is the zero with one digit, which is below b just as one is |
| C175 | client functions `aliquot`, `perfect` | induction on the rounds left; d is below x in every round, so no quotient of equal numbers occurs |
| C176 | client functions `triangular`, `pyramid` | the dividend equals the divisor for x = 1 only; the sums are Mathlib's finite sums |
| C60 | `operator=` | refuted (descriptor assigned before the digits) + exact failure state |

## 5. What the proofs found out about the code
Each item is a theorem about the model of the unchanged code.
* `abs_val_is_gt/lt` answer "some digit is larger/smaller" for equal lengths: 19 > 21 and 21 > 19 (C04–C06).
* For negative numbers `>` uses `<=`, and `>=` uses `<`: -5 > -5 holds, -5 >= -5 does not (C07, C08).
* `a - b` with different signs subtracts: 5 - (-3) = 2 (C16, C17).
* `a + (-b)` or `a - b` with two empty (zero) operands reads out of bounds (C10, C18).
* `0 * 0` recurses forever (C26). For the shipped native types products lose carries, overflow in the conversion from
  `double`, or lose low bits above 2^53 (C25); schoolbook products lose carries (C29).
* Division: `a / a = 0` (C32), division by an empty zero never returns (C33), native types divide by zero
  in `shift_left_1` as soon as a quotient above 1 is needed (C34).
* Infinity plus 5 is 0; x / infinity never returns (C38, C39).
* In debug builds the precondition check of subtraction throws for 21 - 19 (C56).
* Printing is ambiguous for base 16 and native digits (C48); `push_front`/`push_back` act at the opposite end to
  their documentation (C43).
* A failed copy assignment leaves the old digits with the new sign (C60).
* `nextPow2(2^32 + 1) = 2^33 - 1` (C27).
* A leading zero digit breaks comparison, subtraction and division: 05 > 7, 05 - 7 = 98, 05 / 2 = 52 (C62).
* `tests/compress_test.cpp` works for ASCII text only because two faults cancel: the first division of a padded number
  wraps around and leaves a sentinel bit, and 2 / 2 = 0 removes it. Text with a byte above 7F is corrupted (C61).
* `tests/arithmetic_test.cpp` turns 1 into 0: after `*=` and `/=` the quotient of equal magnitudes is 0 (C63).
* `tests/integer_test.cpp` is undefined for operand 0 and for operands of 32 and more (C65); the bytes 9..13 and 32 of an
  8-bit BNIntType cannot be read back (C66).
* Base-2 products are limited to 128 digits and base-8 products to 1170 digits in the shorter factor (C67). In base 10 and 16 there is a limit too: from 47 722 000 and
  17 895 800 digits on, two factors of maximal digits make the carry pass convert a double that does not fit (C122).
* "Any numerical base" (README) is not any base: a `BNIntType` of w bits adds and subtracts in bases up to 2^(w-1) and
  multiplies in bases up to 2^(w/2); nothing rejects a larger base, the results are silently wrong (C123).
* In debug builds 51 / 7 throws in base 10 (C70). Remainders by a - (a/b)*b are wrong and Euclid's algorithm never ends for equal
  numbers above 1 (C73, C74).
* Every difference printed by `tests/arithmetic_test.cpp` is wrong: e.g. -199 - 10 prints -189, 10 - -199 prints 0 (C83).
* `for (i = 0; i < 29; i += 10)` runs until i = 100; `std::max(21, 19)` is 19; sorting with `<` leaves 21, 19 (C86 - C88).
* A `std::set` loses keys: after inserting 21 and 19, 19 is not found (C125).
* The move constructor is not `noexcept`: a growing `std::vector` copies all its numbers (C128), and `push_back(std::move(x))` may
  throw after it has destroyed the digits of `x` (C129).
* Newton's square root of 1 and of 2 is 0 (C89). Writing 107 to base 10 by repeated division gives the "digits" 7, 10 (C90).
* 7 / 2 / 3 is 0 although 7 / 6 is 1 (C92); 10 / 10 in base 10 is 0 although dropping the last digit leaves 1 (C93).
* Square-and-multiply returns 8 for 2^3 mod 8, reads out of bounds for 12^3 mod 4 and never returns for 12^4 mod 4 (C96): a remainder
  that is zero has no digits, and two such zeros can neither be subtracted nor multiplied.
* `x -= y` with `x < y` (same sign) and `x += y` with opposite signs and a larger `y` replace the storage of `x` by a copy of `y`: room that was
  reserved is lost, references to digits become invalid, and without memory `x` becomes an infinity although the result would have had room (C143).
* Division by the zero without digits, which loops for ever in unlimited memory (C33), uses up any finite memory and then throws (C106).
* Plus infinity is less than 5; NaN equals NaN (C102). The least common multiple of 2 and 4 as 2 / gcd * 4 is 0 (C103). Bisection between
  0 and 2 never ends, since (0 + 2) / 2 is 0 (C104); the square root by bisection from 0 hangs for 1 and 3 only.
* A locale with digit grouping has no effect on decimal numbers, and groups each digit of bases above 1000 by itself (C133).
* The decimal expansion of 1/10 by repeated multiplication and division has the digits 0 and 10 (C147). The extended Euclidean algorithm with signed
  coefficients returns 0 as the inverse of 3 modulo 5 (C146). Products keep only as many digits as the transform has places: with digits beyond the base
  255 * 255 is 25 in base 10 (C145).
* The test of Miller and Rabin accepts 33 to base 10: since 2 - 2 / 2 * 2 is 2, halving 32 stops at 2 instead of 1. No prime is rejected (C164).
* The binomial coefficient n over n by the multiplicative formula is 0 for n > 1 (C166); fast doubling of Fibonacci numbers from F(0) hangs (C165).
* (1 + 3 - 1) / 3 and (2 + 2 + 4) / (4 + 4) are 0: rounding a quotient up or to nearest fails where the dividend equals the divisor (C141).
* A compound assignment repeated after `bad_alloc` returns normally and leaves zero (C140).
* `setw(5) << 12` writes six characters, and with `showbase` the number 0x12 is written 0x10x2 (C98, C99).
* `operator[]` throws an enumerator that no handler for `std::exception` catches, and handlers for `BNUnderflow` or `bad_alloc` around a
  compound operator never match, since `throw e` copies the static type (C100).
* The 32-bit counters of `mul_naive` wrap around: factors of 2^32 digits make it loop for ever, and a product of more than
  2^32 + 1 digits gets digits in wrong places (C117).
* Digits may exceed the base: to base 10, adding 0 to the digit 20 gives 10, subtracting 2 from the digit 15 gives 23 (C119).
* `x = std::move(x)` makes the sign positive (the descriptor is reset after it was read from the same object), C120.
* Division doubles the divisor anew for every bit of the quotient, so that it takes cubic time (C116).
* (1 * b) / b = 0 for |b| > 1 (C80); a power loop never returns for a zero base (C81).
* `fft_complex` never reads the last cell of a list of odd length and gives wrong values for every length that is not a power of two;
  on an empty list it calls itself for ever (C76). The multiplication only passes powers of two below 2^32 cells.
* The constant pi of `fft_complex` is a `double` literal: with `long double` the transform is only as accurate as with `double` (C137).
* With 8-bit, 16-bit, base-2 and base-8 digits a product is either right or undefined behaviour, never a wrong number (C68).

## 6. Coverage: every function of the code
Paths are relative to `/repo/include/bignum` unless they start with `src` or `tests`. The last column names the properties that would
break if the function changed.

| function | model | main properties |
|---|---|---|
| `impl/bn_compare_impl.h` `abs_val_is_eq/gt/ge/lt/le` | `absEq`, `absGt`, `absGe`, `absLt`, `absLe` | C01–C08, C102, C114 |
| `impl/bn_addition_impl.h` `abs_val_add` | `addDigit`, `addBody`, `absAdd` | C09, C11–C14, C21, C105, C114, C119, C123, C144 |
| `impl/bn_subtraction_impl.h` `abs_val_sub` (with its `BN_DEBUG` block) | `subDigit`, `subBody`, `popZeros`, `subDebugCheck`, `absSub` | C10, C15–C20, C56, C57, C114, C123, C159 |
| `impl/bn_multiplication_impl.h` `mul_strassen` | `floatToDouble`, `carryStep`, `carryLoop`, `countTopZeros`, `mulStrassen` | C23–C26, C67, C68, C72, C108, C113, C115, C122, C130, C131, C145 |
| `impl/bn_multiplication_impl.h` `mul_naive` | `naiveDigit`, `naiveBody`, `naiveInner`, `naiveRow`, `mulNaive` | C28, C29, C117 |
| `impl/bn_division_impl.h` `shift_left_1` | `shlDigit`, `shlLoop`, `shiftLeft1` | C31, C34, C161 |
| `impl/bn_division_impl.h` `abs_val_div` | `searchBody`, `divBody`, `absDiv` | C31–C35, C58, C69, C101, C116, C161 |
| `impl/fourier_impl.h` `isPow2`, `nextPow2` | `isPow2`, `nextPow2` | C27, C131 |
| `impl/fourier_impl.h` `fft_complex`, `ifft_complex` | `fftPartition`, `twiddle`, `fftCombine`, `fftComplex`, `ifftComplex` | C22, C75–C77, C135–C138, C142, C152–C158 |
| `impl/fourier_impl.h` `create_fft_table`, `convolute_fft` | `createFftTable`, `convolutePoint`, `convoluteFft` | C22, C24, C75, C131, C136 |
| `impl/bn_type_impl.h` `operator<<` | `toStream`; `Fmt.put` with flags; `writeTo` on a stream that may fail | C47, C48, C78, C97–C99, C124, C132, C133 |
| constructors, copy, move, `operator=` | `default`, `ofList`, `copy`, `moveCtor`, `moveAssign`, `copyAssign` | C45, C46, C60 |
| `getData`, `getDescriptor`, `size`, `setDescriptor`, `isPositive`, `isNegative`, `isInfinite`, `isNan`, `isComputable` | same names | C36, C37, C105 |
| `resize`, `push*`, `pop*`, `push`, `pop`, `clear`, `operator[]` (both) | same names, `at_`, `setAt` | C41–C44, C93, C100 |
| `operator==, !=, >, >=, <, <=` | `eq`, `ne`, `gt`, `ge`, `lt`, `le` | C01–C08, C102, C127 |
| `operator+=, -=, *=, /=` with their handlers | `addTry`, `subTry`, `divTry`, `handle`, `addAssign`, … | C09–C40, C91, C100, C106, C107, C109–C112 |
| `operator+, -, *, /` | `viaCopy`, `add`, `sub`, `mul`, `div` | C60, C72, C100 |
| `impl/bn_int_type_impl.h` constructors, assignments, cast | identity on the stored integer (`Val.conv`) | C49 |
| `impl/bn_int_type_impl.h` operators (member, with `numType`, r-value) | `IntType.bin`, `assignOp`, `binR`, `cmp`, `cmpR`, `un`, `preInc`, … | C49–C52, C65 |
| `impl/bn_int_type_impl.h` `operator<<`, `operator>>` | `IntegerTest.put`, `extract` | C65, C66 |
| `impl/bn_limits_impl.h`, `bn_limits.h` | `Limits` presets | C53 |
| `src/bn_except.cpp` `bn_runtime_assert`; macros `BN_ASSERT`, `BN_WARN`, `BN_ALERT` | `runtimeAssert` | C54, C100 |
| `src/bn_except.cpp` `BNUnderflow` | `Exn.bnUnderflow` | C56, C57, C100, C101 |
| `src/bn_except.cpp` `BNNaN`, the `what()` texts; macro `BN_DEBUG_ASSERT` | not modelled: never thrown or used by the library | – |
| `tests/arithmetic_test.cpp` | `Half`, `testMacro`, `Program` | C63, C83 |
| `tests/compress_test.cpp` | `Model/Compress` | C61 |
| `tests/integer_test.cpp` | `Model/IntegerTest` | C65 |
| `tests/test_file.cpp` | nothing to model: `main` prints one line and uses no part of the library | – |
